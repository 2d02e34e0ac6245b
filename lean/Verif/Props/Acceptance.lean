import Verif.Props.Compiler
import Verif.ParseScript

/-
Which texts the compiler accepts: property C66.

The specification is the grammar (`Syn`, `Verif/Syntax.lean`), the scope rules (`Legal`, `Verif/Sem.lean`) and `Script` below.
-/
namespace Buzz.Props

open Buzz.Msg Buzz.Lex Buzz.Debug Buzz.Asm Buzz.Parser Buzz.Comp Buzz.VM Buzz.Heap Buzz.Sim Buzz.Link
open Buzz.Lang (Ast Thing Scope Shape St T2 Syn complete Legal globalVal functions decls tops syn_tops)
open Buzz.Accept (script_sound script_le drain_fine drain_tokens drain_last drain_no_abort)

/-! ### Specification -/

/-- The tokens of a text that count: those that are not statement ends. -/
def telling (toks : List Tok) : List T2 := (toks.filter (fun t => decide (t.type ≠ .statend))).map (fun t => (t.type, t.value))

/-- The tokens of a text without statements. -/
def Blank (toks : List Tok) : Prop := telling toks = [(.eof, [])]

/-- The text is the program `b` up to its end. -/
def Whole (toks : List Tok) (b : Ast) : Prop := ∃ us v, telling toks = us ++ [(.eof, v)] ∧ us ≠ [] ∧ Syn .stats us b ∧ complete b = true ∧ Legal .top b

/-- The text is the statements `b`, then a closing brace that closes nothing, and then anything. -/
def Cut (toks : List Tok) (b : Ast) : Prop := ∃ us v r, telling toks = us ++ (.blockclose, v) :: r ∧ Syn .stats us b ∧ Legal .top b

/-- What the compiler takes. -/
def Script (toks : List Tok) (b : Ast) : Prop := Whole toks b ∨ Cut toks b

/-- No function's name is also declared as a variable. -/
def NamesOnce (b : Ast) : Prop := ∀ d ∈ functions b, d.1 ∉ decls b

/-! ### Lemmas -/

theorem drain_le {fs : FS} : ∀ {n m : Nat} {lex : List File}, drain fs n lex ≠ .hang → n ≤ m → drain fs m lex = drain fs n lex := by
  have one : ∀ {n : Nat} {lex : List File}, drain fs n lex ≠ .hang → drain fs (n + 1) lex = drain fs n lex := by
    intro n
    induction n with
    | zero => intro lex h; exact absurd rfl h
    | succ n ih =>
      intro lex h
      rw [drain] at h
      rw [drain]
      conv_rhs => rw [drain]
      have hx : nexttok fs n lex ≠ .hang := by
        intro e
        rw [e] at h
        exact h rfl
      rw [nexttok_succ hx]
      cases hk : nexttok fs n lex with
      | ok r =>
        rw [hk, Res.ok_bind] at h
        rw [Res.ok_bind, Res.ok_bind]
        simp only at h ⊢
        by_cases he : r.1.type = .eof
        · rw [if_pos he, if_pos he]
        · rw [if_neg he] at h ⊢
          rw [if_neg he, ih]
          intro e
          rw [e] at h
          exact h rfl
      | ub => rfl
      | abort => rfl
      | hang => exact absurd hk hx
  intro n m lex h hm
  induction m, hm using Nat.le_induction with
  | base => rfl
  | succ k _ ih => rw [one (by rw [ih]; exact h), ih]

theorem begins_iff {pre : List Bytes} {toks : List Tok} (hf : Accept.Fine (telling toks)) (hl : (telling toks).length ≠ 1) {b : Ast} :
    (∃ us rest o, Accept.Begins pre (telling toks) us rest b o) ↔ Script toks b := by
  have legal : (∃ o, comp b .val (start pre) = some o) ↔ Legal .top b := (comp_takes b .val).2 (start pre) .top (tabs_start pre)
  constructor
  · rintro ⟨us, rest, o, h⟩
    have hlegal := legal.mp ⟨o, h.comp⟩
    rcases h.ends with ⟨v, r, rfl⟩ | ⟨hb, v, r, rfl⟩
    · exact Or.inr ⟨us, v, r, h.tokens, h.syn, hlegal⟩
    · have hr : r = [] := by
        have hf := hf
        rw [h.tokens] at hf
        clear h hl
        induction us with
        | nil =>
          cases r with
          | nil => rfl
          | cons u r => exact absurd rfl hf.1
        | cons u us ih =>
          cases us with
          | nil => exact ih hf.2.2
          | cons u' us => exact ih hf.2.2
      subst hr
      refine Or.inl ⟨us, v, h.tokens, ?_, h.syn, hb, hlegal⟩
      rintro rfl
      rw [h.tokens] at hl
      exact hl rfl
  · rintro (⟨us, v, h1, _, h2, h3, h4⟩ | ⟨us, v, r, h1, h2, h3⟩)
    · obtain ⟨o, ho⟩ := legal.mpr h4
      exact ⟨us, _, o, h1, h2, Or.inr ⟨h3, v, [], rfl⟩, ho⟩
    · obtain ⟨o, ho⟩ := legal.mpr h3
      exact ⟨us, _, o, h1, h2, Or.inl ⟨v, r, rfl⟩, ho⟩

/-- The functions of an accepted program can be registered. -/
theorem register_ok {pre : List Bytes} {us : List T2} {b : Ast} {o : Out} {p : P} (hs : Syn .stats us b) (ho : comp b .val (start pre) = some o) (hp : Accept.Holds o p) (honce : NamesOnce b) :
    ∃ ls, registerAll (p.symstack.getLastD []) p.chunks = .ok ls := by
  obtain ⟨h1, h2, h3⟩ := hp
  have hstr := strings_of ho
  have hmade := (comp_makes b .val).2.2 (start pre) o .top (tabs_start pre) ho
  have hgens := ((comp_keep b .val).2 (start pre) o .top (tabs_start pre) ho).2
  have htops := (syn_tops hs).1
  have hbase : BaseOk (p.symstack.getLastD []) (numbered (Link.stringsOf pre b)) := by
    obtain ⟨b', k1, k2⟩ : Tabs o.cs .top := (comp_tabs b .val) (start pre) o .top ho (tabs_start pre)
    rw [h2, k1, ← hstr]
    exact k2
  refine ⟨_, registerAll_ok hbase p.chunks (by
    intro c hc f g hcs
    have hm : plain c ∈ chunksOf o := by
      show _ ∈ (_ :: _ : List EC)
      rw [← h1]
      exact List.mem_map_of_mem hc
    rcases List.mem_cons.mp hm with e | hm
    · have : (plain c).sym = none := by rw [e]
      rw [show (plain c).sym = c.sym from rfl, hcs] at this
      cases this
    · rcases hgens (plain c) hm f g hcs with hd | hd
      · exfalso
        have hn : plain c ∈ named o.news := List.mem_filter.mpr ⟨hm, by show c.sym.isSome = true; rw [hcs]; rfl⟩
        obtain ⟨i, hi, e1⟩ := List.getElem_of_mem hn
        have hlen := hmade.defs.length_eq
        have := List.forall₂_iff_get.mp hmade.defs
        obtain ⟨c', o', g', k1, _⟩ := this.2 i hi (by rw [← hlen]; exact hi)
        rw [List.get_eq_getElem, e1, show (plain c).sym = c.sym from rfl, hcs] at k1
        cases k1
        refine honce ((tops b).get ⟨i, by show i < (Comp.outer .top (tops b)).length; rw [← hlen]; exact hi⟩) ?_ hd
        rw [htops]
        exact List.get_mem _ _
      · rw [show p.symstack.getLastD [] = base o.cs by unfold base; rw [h2]]
        exact hd)⟩

theorem output_cases (p : P) : (∃ t, output p = .ok t) ∨ output p = .ub := by
  unfold output
  have key : ∀ (base : Syms) (cs : List Chunk), (∃ ls, registerAll base cs = .ok ls) ∨ registerAll base cs = .ub := by
    intro base cs
    induction cs with
    | nil => exact Or.inl ⟨[], rfl⟩
    | cons c cs ih =>
      have one : (∃ ls, register base c = .ok ls) ∨ register base c = .ub := by
        unfold register
        cases c.sym with
        | none => exact Or.inl ⟨_, rfl⟩
        | some s =>
          simp only
          cases FMap.get base s.1 with
          | none => exact Or.inr rfl
          | some t =>
            simp only
            by_cases h : t.gen = s.2
            · rw [if_pos h]; exact Or.inl ⟨_, rfl⟩
            · rw [if_neg h]; exact Or.inr rfl
      rw [registerAll]
      rcases one with ⟨l, h⟩ | h
      · rw [h]
        rcases ih with ⟨m, k⟩ | k
        · rw [k]; exact Or.inl ⟨_, rfl⟩
        · rw [k]; exact Or.inr rfl
      · rw [h]; exact Or.inr rfl
  rcases key (p.symstack.getLastD []) p.chunks with ⟨l, h⟩ | h
  · rw [h]; exact Or.inl ⟨_, rfl⟩
  · rw [h]; exact Or.inr rfl

theorem output_ok {p : P} {ls : List Ln} (h : registerAll (p.symstack.getLastD []) p.chunks = .ok ls) : ∃ t, output p = .ok t := by
  unfold output
  rw [h]
  exact ⟨_, rfl⟩

/-- Compilation, when the lexer's tokens are known. -/
theorem compile_eq {fs : FS} {n : Nat} {pre : List Bytes} {fname : Bytes} {lex : List File} {toks : List Tok} {fin : Bool} (hl : lexNew fs fname = some lex)
    (hd : drain fs n lex = .ok (toks, fin)) :
    compile fs n pre fname = (script n pre toks fin).bind (fun r => match r with
      | none => .ok none
      | some p => (output p).bind (fun t => .ok (some t))) := by
  unfold compile
  rw [hl]
  simp only
  rw [hd]
  show (script n pre toks fin >>= _) = _
  cases script n pre toks fin with
  | ok r =>
    cases r with
    | none => rfl
    | some p => cases h : output p <;> simp [h] <;> rfl
  | ub => rfl
  | abort => rfl
  | hang => rfl

/-- The tokens of a text, as a lexer gives them. -/
theorem drain_of_tokens {fs : FS} {lex : List File} {toks : List Tok} {N : Nat} (h : ∀ n ≥ N, tokens fs n lex = .ok toks) :
    ∃ fin, ∀ n ≥ N, drain fs n lex = .ok (toks, fin) := by
  have h0 := h N le_rfl
  rw [drain_tokens] at h0
  cases hd : drain fs N lex with
  | ok r =>
    rw [hd] at h0
    cases h0
    exact ⟨r.2, fun n hn => by rw [drain_le (by rw [hd]; simp) hn, hd]⟩
  | ub => rw [hd] at h0; cases h0
  | abort => rw [hd] at h0; cases h0
  | hang => rw [hd] at h0; cases h0

/-! ### The properties -/

/-- **C66**: compilation ends, whatever the text.  There is a number of calls that is never exceeded, and the result is a file, a message
or undefined behaviour. -/
theorem C66_ends (fs : FS) (hfs : FiniteFS fs) (pre : List Bytes) (fname : Bytes) :
    ∃ N r, r ≠ .hang ∧ r ≠ .abort ∧ ∀ n ≥ N, compile fs n pre fname = r := by
  cases hl : lexNew fs fname with
  | none => exact ⟨0, .ok none, by simp, by simp, fun n _ => by unfold compile; rw [hl]⟩
  | some lex =>
    obtain ⟨N, hN⟩ := C44_terminates fs hfs fname lex hl
    have hne : drain fs N lex ≠ .hang := by
      intro e
      have := hN N le_rfl
      rw [drain_tokens, e] at this
      exact this rfl
    have hle : ∀ n ≥ N, drain fs n lex = drain fs N lex := fun n hn => drain_le hne hn
    cases hd : drain fs N lex with
    | ok r =>
      obtain ⟨toks, fin⟩ := r
      have hf := drain_fine hd
      let M := 16 * (telling toks).length + 5
      have hs := script_sound (pre := pre) (fin := fin) (n := M) (toks := toks) rfl hf (by show 16 * (telling toks).length + 4 < _; omega)
      have hmono : ∀ n ≥ max N M, script n pre toks fin = script M pre toks fin := by
        intro n hn
        refine script_le (by omega) ?_
        intro e
        rw [e] at hs
        exact hs
      have e : ∀ n ≥ max N M, compile fs n pre fname = _ := fun n hn => by
        rw [compile_eq hl ((hle n (by omega)).trans hd), hmono n hn]
      refine ⟨max N M, _, ?_, ?_, e⟩
      all_goals
        cases hx : script M pre toks fin with
        | ok r =>
          cases r with
          | none => simp
          | some p => rcases output_cases p with ⟨t, h⟩ | h <;> simp [h]
        | ub => simp
        | abort => rw [hx] at hs; exact hs.elim
        | hang => rw [hx] at hs; exact hs.elim
    | ub => exact ⟨N, .ub, by simp, by simp, fun n hn => by unfold compile; rw [hl]; simp only; rw [hle n hn, hd]; rfl⟩
    | abort => exact absurd hd (drain_no_abort _ _)
    | hang => exact absurd hd hne

/-- **C66**: what the compiler accepts is exactly what the grammar and the scope rules allow.  Given the tokens of the text:
* if a file is written, the text is empty, or a program, or a program followed by a closing brace;
* every such text is accepted, provided no function's name is declared as a variable as well;
* a text that is rejected is none of these;
* undefined behaviour occurs only for other texts, or if a function's name is declared as a variable. -/
theorem C66_accepts (fs : FS) (pre : List Bytes) (fname : Bytes) (lex : List File) (hl : lexNew fs fname = some lex) (toks : List Tok)
    (hx : ∃ N, ∀ n ≥ N, tokens fs n lex = .ok toks) :
    ∃ N, ∀ n ≥ N,
      (∀ file, compile fs n pre fname = .ok (some file) → Blank toks ∨ ∃ b, Script toks b) ∧
      (Blank toks ∨ (∃ b, Script toks b ∧ NamesOnce b) → ∃ file, compile fs n pre fname = .ok (some file)) ∧
      (compile fs n pre fname = .ok none → ¬ Blank toks ∧ ∀ b, ¬ Script toks b) ∧
      (compile fs n pre fname = .ub → ¬ Blank toks ∧ ∀ b, Script toks b → ¬ NamesOnce b) := by
  obtain ⟨N, hN⟩ := hx
  obtain ⟨fin, hd⟩ := drain_of_tokens hN
  refine ⟨max N (16 * (telling toks).length + 5), fun n hn => ?_⟩
  have hdn := hd n (by omega)
  have hf := drain_fine hdn
  have hs := script_sound (pre := pre) (fin := fin) (n := n) (toks := toks) rfl hf (by show 16 * (telling toks).length + 4 < _; omega)
  obtain ⟨ts', he, _⟩ := drain_last hdn
  have hlen : ∀ v, telling toks = [(.eof, v)] → Blank toks := by
    intro v h
    have : telling toks = telling ts' ++ [(.eof, [])] := by
      unfold telling
      rw [he, List.filter_append, List.map_append]
      rfl
    rw [h] at this
    have := (List.append_inj' (show [] ++ [(TT.eof, v)] = telling ts' ++ [(TT.eof, [])] from this) rfl).2
    unfold Blank
    rw [h, this]
  have hblank : (telling toks).length ≠ 1 → ¬ Blank toks := by
    intro h e
    rw [e] at h
    exact h rfl
  rw [compile_eq hl hdn]
  change (match script n pre toks fin with
    | .ok (some p) => (∃ v, telling toks = [(.eof, v)] ∧ p.chunks = [] ∧ p.symstack = [] ∧ p.strings = preload pre) ∨
        ((telling toks).length ≠ 1 ∧ (∃ us rest b o, Accept.Begins pre (telling toks) us rest b o) ∧ ∀ us rest b o, Accept.Begins pre (telling toks) us rest b o → Accept.Holds o p)
    | .ok none => (telling toks).length ≠ 1 ∧ ∀ us rest b o, ¬ Accept.Begins pre (telling toks) us rest b o
    | .ub => fin = true ∧ (telling toks).length ≠ 1 ∧ ∀ us rest b o, ¬ Accept.Begins pre (telling toks) us rest b o
    | .abort => False
    | .hang => False) at hs
  have none_of : (telling toks).length ≠ 1 → (∀ us rest b o, ¬ Accept.Begins pre (telling toks) us rest b o) → ∀ b, ¬ Script toks b := by
    intro h1 h2 b h
    obtain ⟨us, rest, o, h⟩ := (begins_iff hf h1).mpr h
    exact h2 us rest b o h
  cases hx : script n pre toks fin with
  | ok r =>
    rw [hx] at hs
    cases r with
    | none =>
      obtain ⟨h1, h2⟩ := hs
      have h3 := none_of h1 h2
      refine ⟨fun file h => by simp at h, fun h => ?_, fun _ => ⟨hblank h1, h3⟩, fun h => by simp at h⟩
      rcases h with h | ⟨b, h, _⟩
      · exact absurd h (hblank h1)
      · exact absurd h (h3 b)
    | some p =>
      simp only [Res.bind]
      rcases hs with ⟨v, h1, h2, h3, h4⟩ | ⟨h1, ⟨us, rest, b, o, h2⟩, h3⟩
      · have : registerAll (p.symstack.getLastD []) p.chunks = .ok [] := by rw [h2]; rfl
        obtain ⟨t, ht⟩ := output_ok this
        rw [ht]
        refine ⟨fun _ _ => Or.inl (hlen v h1), fun _ => ⟨_, rfl⟩, fun h => by simp at h, fun h => by simp at h⟩
      · have hscript := (begins_iff hf h1).mp ⟨us, rest, o, h2⟩
        have good : ∀ b, Script toks b → NamesOnce b → ∃ t, output p = .ok t := by
          intro b hb hn
          obtain ⟨us, rest, o, hb⟩ := (begins_iff hf h1).mpr hb
          obtain ⟨ls, hr⟩ := register_ok hb.syn hb.comp (h3 us rest b o hb) hn
          exact output_ok hr
        refine ⟨fun _ _ => Or.inr ⟨b, hscript⟩, fun h => ?_, fun h => ?_, fun h => ⟨hblank h1, fun b hb hn => ?_⟩⟩
        · rcases h with h | ⟨b, hb, hn⟩
          · exact absurd h (hblank h1)
          · obtain ⟨t, ht⟩ := good b hb hn
            rw [ht]
            exact ⟨_, rfl⟩
        · rcases output_cases p with ⟨t, ht⟩ | ht <;> rw [ht] at h <;> simp at h
        · obtain ⟨t, ht⟩ := good b hb hn
          rw [ht] at h
          simp at h
  | ub =>
    rw [hx] at hs
    obtain ⟨_, h1, h2⟩ := hs
    have h3 := none_of h1 h2
    refine ⟨fun file h => by simp at h, fun h => ?_, fun h => by simp at h, fun _ => ⟨hblank h1, fun b h => absurd h (h3 b)⟩⟩
    rcases h with h | ⟨b, h, _⟩
    · exact absurd h (hblank h1)
    · exact absurd h (h3 b)
  | abort => rw [hx] at hs; exact hs.elim
  | hang => rw [hx] at hs; exact hs.elim

/-! ### Accepted texts and their meaning -/

/-- Opening and closing braces. -/
def opens (ts : List T2) : Nat := ts.countP (fun t => t.1 == .blockopen)
def closes (ts : List T2) : Nat := ts.countP (fun t => t.1 == .blockclose)

/-- No closing brace without an opening one before. -/
def Balanced (ts : List T2) : Prop := ∀ us vs, ts = us ++ vs → closes us ≤ opens us

theorem opens_nil : opens [] = 0 := rfl
theorem closes_nil : closes [] = 0 := rfl
theorem opens_append (us vs : List T2) : opens (us ++ vs) = opens us + opens vs := List.countP_append
theorem closes_append (us vs : List T2) : closes (us ++ vs) = closes us + closes vs := List.countP_append
theorem opens_cons (t : T2) (vs : List T2) : opens (t :: vs) = opens vs + if t.1 = .blockopen then 1 else 0 := by
  unfold opens
  rw [List.countP_cons]
  by_cases h : t.1 = .blockopen <;> simp [h]
theorem closes_cons (t : T2) (vs : List T2) : closes (t :: vs) = closes vs + if t.1 = .blockclose then 1 else 0 := by
  unfold closes
  rw [List.countP_cons]
  by_cases h : t.1 = .blockclose <;> simp [h]

theorem ids_braces {ps : List T2} {xs : List Bytes} (h : Lang.Ids ps xs) : opens ps = 0 ∧ closes ps = 0 := by
  induction h with
  | nil => exact ⟨rfl, rfl⟩
  | one => exact ⟨rfl, rfl⟩
  | more _ _ ih => simp [opens_cons, closes_cons, ih]

theorem binTok_braces {c : Lang.Cat} {t : T2} {o : VM.Bin} (h : Lang.BinTok c t o) : t.1 ≠ .blockopen ∧ t.1 ≠ .blockclose := by
  cases h <;> simp

theorem keyTok_braces {t : T2} {k : Lang.Key} (h : Lang.KeyTok t k) : t.1 ≠ .blockopen ∧ t.1 ≠ .blockclose := by
  cases h <;> simp

/-- The braces of a phrase match. -/
theorem syn_braces {c : Lang.Cat} {us : List T2} {a : Ast} (h : Syn c us a) : opens us = closes us := by
  induction h <;>
    (try have := binTok_braces ‹_›) <;> (try have := keyTok_braces ‹_›) <;> (try have := ids_braces ‹_›) <;>
    (try simp_all [opens_nil, closes_nil, opens_append, closes_append, opens_cons, closes_cons]) <;> (try omega)

/-- With matching braces, nothing of an accepted text is ignored. -/
theorem balanced_not_cut {toks : List Tok} (h : Balanced (telling toks)) (b : Ast) : ¬ Cut toks b := by
  rintro ⟨us, v, r, h1, h2, _⟩
  have := h (us ++ [(.blockclose, v)]) r (by rw [h1]; simp)
  have e := syn_braces h2
  rw [opens_append, closes_append, opens_cons, closes_cons] at this
  simp [opens, closes] at this e
  omega

theorem compile_le {fs : FS} {n m : Nat} {pre : List Bytes} {fname : Bytes} (h : compile fs n pre fname ≠ .hang) (hm : n ≤ m) : compile fs m pre fname = compile fs n pre fname := by
  cases hl : lexNew fs fname with
  | none => unfold compile; rw [hl]
  | some lex =>
    have hd : drain fs n lex ≠ .hang := by
      intro e
      unfold compile at h
      rw [hl] at h
      simp only at h
      rw [e] at h
      exact h rfl
    cases hx : drain fs n lex with
    | ok r =>
      obtain ⟨toks, fin⟩ := r
      rw [compile_eq hl hx] at h
      rw [compile_eq hl hx, compile_eq hl ((drain_le hd hm).trans hx), script_le hm]
      intro e
      rw [e] at h
      exact h rfl
    | ub =>
      unfold compile
      rw [hl]
      simp only
      rw [drain_le hd hm, hx]
      rfl
    | abort =>
      unfold compile
      rw [hl]
      simp only
      rw [drain_le hd hm, hx]
      rfl
    | hang => exact absurd hx hd

/-- **C66**: whatever text the compiler accepts, the file it writes does what the text means: if no brace is closed that was not opened and
the text is not empty, then it is a program `b`, and if the constants of `b` fit (its numbers, its strings and their count), the assembler
takes the file, and loading and executing the bytecode does what `b` means (as in C65). -/
theorem C66_means (fs : FS) (T : Tools) (order : List (Nat × Bytes) → List (Nat × Bytes)) (ho : ∀ l, (order l).Perm l) (pre : List Bytes) (fname : Bytes)
    (lex : List File) (hl : lexNew fs fname = some lex) (toks : List Tok) (hx : ∃ N, ∀ n ≥ N, tokens fs n lex = .ok toks) (hpos : ∀ t ∈ toks, PosOk (mark t))
    (hne : ¬ Blank toks) (hbal : Balanced (telling toks)) (n : Nat) (file : Bytes) (hc : compile fs n pre fname = .ok (some file))
    (E : Env) (F : CFuns) (he : E.endian = T.endian) (hF : FOk F) (hE : Obj.StrcmpLaw E.sc) :
    ∃ b, Whole toks b ∧ (NamesOnce b → (∀ t ∈ consts b, NumOk T t) → (∀ s ∈ Link.stringsOf pre b, NoBreak s) → (Link.stringsOf pre b).length ≤ 65535 →
        65535 + Comp.weight b < 18446744073709551616 →
      ∃ code dbg, asm T order file = .ok (some (code, dbg)) ∧
        code.length ≤ 180 * phrases b + 13 + ((Link.stringsOf pre b).map (fun s => s.length + 1)).sum ∧
        (code.length ≤ 2147483647 → ∀ s0, Lang.initial b = .ok () s0 →
          ∃ vm0 vm1, VM.load E code VM.new = .ok vm0 ∧ (∃ N, ∀ m ≥ N, boot E F m vm0 = .ok vm1) ∧
            vm1.state = .ready ∧ vm1.stack = [] ∧ vm1.rest = [] ∧ vm1.frames = [] ∧ Held (Link.stringsOf pre b) s0 vm1 ∧
            ∀ n, match Lang.exec ⟨E, T.strtof, Lang.noLib⟩ n b s0 with
              | .ok _ s => ∃ vm2, (∃ N, ∀ m ≥ N, VM.run E F m vm1 = .ok vm2) ∧ vm2.state = .done ∧ vm2.stack = [] ∧ vm2.rest = [] ∧ vm2.frames = [] ∧ Held (Link.stringsOf pre b) s vm2
              | .ret _ _ => False
              | .err e => ∃ vm2, (∃ N, ∀ m ≥ N, VM.run E F m vm1 = .ok vm2) ∧ vm2.state = .error ∧ vm2.error = e
              | .odd => True
              | .time => ∀ k ≤ n, VM.run E F k vm1 = .hang)) := by
  have hc' : ∀ m ≥ n, compile fs m pre fname = .ok (some file) := fun m hm => by rw [compile_le (by rw [hc]; simp) hm, hc]
  obtain ⟨N, hN⟩ := C66_accepts fs pre fname lex hl toks hx
  obtain ⟨b, hb⟩ := ((hN (max N n) (le_max_left _ _)).1 file (hc' _ (le_max_right _ _))).resolve_left hne
  have hw := hb.resolve_right (balanced_not_cut hbal b)
  refine ⟨b, hw, fun h1 h2 h3 h4 h5 => ?_⟩
  obtain ⟨us, v, k1, k2, k3, k4, k5⟩ := hw
  obtain ⟨M, hM⟩ := hx
  obtain ⟨fin, hd⟩ := drain_of_tokens hM
  obtain ⟨ts', e, _⟩ := drain_last (hd M le_rfl)
  have htel : telling toks = telling ts' ++ [(.eof, [])] := by
    unfold telling
    rw [e, List.filter_append, List.map_append]
    rfl
  rw [htel] at k1
  have hus := (List.append_inj' k1 rfl).1
  obtain ⟨file', code, dbg, ⟨N', q1⟩, q2, q3, q4⟩ := tokens_program fs T order ho pre fname lex hl ts' ⟨M, fun n hn => by rw [hM n hn, e]⟩
    (fun t ht => hpos t (by rw [e]; exact List.mem_append_left _ ht)) us hus k2 b k3 ⟨k4, k5, h1, h2, h3, h4, h5⟩ E F he hF hE
  have : file' = file := by
    have a1 := q1 (max N' n) (le_max_left _ _)
    rw [hc' _ (le_max_right _ _)] at a1
    simpa using a1.symm
  subst this
  exact ⟨code, dbg, q2, q3, q4⟩

/-! ### Concrete texts -/

/-- A file system with the one file `a`. -/
def oneFile (text : String) : FS := fun n => if n = [97] then some ([97], chars text) else none

/-- What becomes of a text: 0 a file is written, 1 it is rejected, 2 undefined behaviour, 3 none of these (too few calls). -/
def verdict (text : String) : Nat :=
  match compile (oneFile text) 120 [] [97] with
  | .ok (some _) => 0
  | .ok none => 1
  | .ub => 2
  | _ => 3

example : verdict "x=1" = 0 ∧ verdict "" = 0 ∧ verdict "x=(1\ny=2" = 1 ∧ verdict "function f() { function g() {} }" = 1 := by decide +kernel

/-- **A defect**: what follows a closing brace that closes nothing is ignored. -/
theorem C66_ignored : verdict "x=1 } + + x" = 0 := by decide +kernel

/-- **A defect**: what follows a character that begins no token, or a quote that is never closed, is ignored. -/
theorem C66_truncated : verdict "x=1 $ + + x" = 0 ∧ verdict "x=1 'abc + + x" = 0 := by decide +kernel

/-- **A defect**: rejecting the text `x` is undefined: the message names the current file of a lexer that has closed all files. -/
theorem C66_message : verdict "x" = 2 := by decide +kernel

/-- **A defect**: declaring the name of a function afterwards is undefined: the symbol is freed that the function refers to; in the other
order it is not. -/
theorem C66_redeclared : verdict "function f() { }\nvar f" = 2 ∧ verdict "var f\nfunction f() { }" = 0 := by decide +kernel

/-- The text that is rejected has no reading in the grammar. -/
example : ∃ toks, ∀ b, ¬ Script toks b ∧ ∃ lex, lexNew (oneFile "x=(1\ny=2") [97] = some lex ∧ tokens (oneFile "x=(1\ny=2") 30 lex = .ok toks := by
  have hl : lexNew (oneFile "x=(1\ny=2") [97] = some [⟨[97], chars "x=(1\ny=2" ++ [10], 1, 0⟩] := rfl
  obtain ⟨toks, h⟩ : ∃ toks, tokens (oneFile "x=(1\ny=2") 30 [⟨[97], chars "x=(1\ny=2" ++ [10], 1, 0⟩] = .ok toks := by
    have : (match tokens (oneFile "x=(1\ny=2") 30 [⟨[97], chars "x=(1\ny=2" ++ [10], 1, 0⟩] with | .ok _ => true | _ => false) = true := by decide +kernel
    cases h : tokens (oneFile "x=(1\ny=2") 30 [⟨[97], chars "x=(1\ny=2" ++ [10], 1, 0⟩] with
    | ok r => exact ⟨r, rfl⟩
    | _ => rw [h] at this; cases this
  have hc : compile (oneFile "x=(1\ny=2") 120 [] [97] = .ok none := by
    have : verdict "x=(1\ny=2" = 1 := by decide +kernel
    unfold verdict at this
    cases h : compile (oneFile "x=(1\ny=2") 120 [] [97] with
    | ok r => cases r with
      | none => rfl
      | some r => rw [h] at this; cases this
    | _ => rw [h] at this; cases this
  obtain ⟨N, hN⟩ := C66_accepts _ [] [97] _ hl toks ⟨30, fun n hn => by rw [tokens_mono (by rw [h]; simp) hn, h]⟩
  have := (hN (max N 120) (le_max_left _ _)).2.2.1 (by rw [compile_le (by rw [hc]; simp) (le_max_right N 120), hc])
  exact ⟨toks, fun b => ⟨this.2 b, _, hl, h⟩⟩

end Buzz.Props
