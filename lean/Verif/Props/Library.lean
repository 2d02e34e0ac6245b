import Verif.Props.Compiler
import Verif.Equip

/-
The machine's library in the programs: property C67.

The specification is the meaning of the library's functions (`Verif/SemLib.lean`: `libNames`, `stdLib`), and `Standard`
(`Verif/InstallBase.lean`), which says where a program finds them.  The C functions are those of `Verif/TypeLib.lean`, `Verif/StringLib.lean`
and `Verif/MathLib.lean`, numbered by `stdFuns` (`Verif/LibSim.lean`) in the order in which `buzzvm_set_bcode` registers them.
-/
namespace Buzz.Props

open Buzz.Msg Buzz.Lex Buzz.Debug Buzz.Asm Buzz.Parser Buzz.Comp Buzz.VM Buzz.Heap Buzz.Sim Buzz.Link
open Buzz.Lang (Ast Thing Scope Shape St T2 Syn complete Legal globalVal)

/-! ## C67 -/

/-- **C67**: after the registration every function of the library is where its name says, with the table it is in as `self`; `id` is the robot's
number; all other variables and everything the script has defined are as before.  A variable of the script with the name of a library is replaced,
whatever it was. -/
theorem C67_library (robot : Nat) (s0 : St) : ∃ s1, Lang.install robot s0 = .ok () s1 ∧ Standard robot s0 s1 := by
  obtain ⟨r, s1, h1, _, _, h2⟩ := installed robot s0
  exact ⟨s1, install_eq h1, h2⟩

/-- What the machine does with a program, given by its tokens. -/
theorem tokens_library (fs : FS) (T : Tools) (order : List (Nat × Bytes) → List (Nat × Bytes)) (ho : ∀ l, (order l).Perm l) (pre : List Bytes) (fname : Bytes)
    (lex : List File) (hl : lexNew fs fname = some lex) (toks : List Tok) (hx : ∃ N, ∀ n ≥ N, tokens fs n lex = .ok (toks ++ [eofTok])) (hpos : ∀ t ∈ toks, PosOk (mark t))
    (ts : List T2) (ht : (toks.filter (fun t => decide (t.type ≠ .statend))).map (fun t => (t.type, t.value)) = ts) (hts : ts ≠ [])
    (b : Ast) (hs : Syn .stats ts b) (hP : Link.Program T pre b) (hroom : (Link.stringsOf pre b).length ≤ 65000)
    (E : Env) (other : CFuns) (he : E.endian = T.endian) (hF : FOk other) (hE : Obj.StrcmpLaw E.sc) (robot : Nat) (hrob : robot < 65536) :
    ∃ file code dbg, (∃ N, ∀ m ≥ N, compile fs m pre fname = .ok (some file)) ∧ asm T order file = .ok (some (code, dbg)) ∧
      code.length ≤ 180 * phrases b + 13 + ((Link.stringsOf pre b).map (fun s => s.length + 1)).sum ∧
      (code.length ≤ 2147483647 → ∀ s0, Lang.initial b = .ok () s0 →
        ∃ s1 vm1, Lang.install robot s0 = .ok () s1 ∧ (∃ N, ∀ m ≥ N, setBcode E (stdFuns E other) m robot code VM.new = .ok vm1) ∧
          vm1.state = .ready ∧ vm1.stack = [] ∧ vm1.rest = [] ∧ vm1.frames = [] ∧ Held (Link.stringsOf pre b) s1 vm1 ∧
          ∀ n, (∃ k vm', stepN E (stdFuns E other) k vm1 = .ok vm' ∧ 65533 < vm'.strings.id2str.length) ∨ match Lang.exec ⟨E, T.strtof, Lang.stdLib⟩ n b s1 with
            | .ok _ s => ∃ vm2, (∃ N, ∀ m ≥ N, VM.run E (stdFuns E other) m vm1 = .ok vm2) ∧ vm2.state = .done ∧ vm2.stack = [] ∧ vm2.rest = [] ∧ vm2.frames = [] ∧ Held (Link.stringsOf pre b) s vm2
            | .ret _ _ => False
            | .err e => ∃ vm2, (∃ N, ∀ m ≥ N, VM.run E (stdFuns E other) m vm1 = .ok vm2) ∧ vm2.state = .error ∧ vm2.error = e
            | .odd => True
            | .time => ∀ k ≤ n, VM.run E (stdFuns E other) k vm1 = .hang) := by
  obtain ⟨N, hx⟩ := hx
  obtain ⟨file, o, cs, dbg, h1, h2, h3, _⟩ := source_ok ho hl hx hpos ht hts hs hP
  have hsize := h3.size
  rw [show (stringBytes (Link.stringsOf pre b)).length = ((Link.stringsOf pre b).map (fun s => s.length + 1)).sum by simp [stringBytes, List.length_flatMap]] at hsize
  refine ⟨file, _, dbg, h1, h2, hsize, fun hsz s0 hi => ?_⟩
  obtain ⟨s1, vm1, h4, h4', h5, h6⟩ := equips h3 hP hroom he hsz hF hE hrob hi
  have hn : ∀ i x, (Link.stringsOf pre b)[i]? = some x → FMap.get (libCtx T pre b o cs E other).strings x = some i := numbered_at (Link.stringsOf_nodup pre b) hP.count
  obtain ⟨ρ, as, h7⟩ := id h6
  have hst : vm1.stack = [] := by
    have := h7.stack
    cases h7.reps
    exact this
  have hfr : vm1.frames = [] := by
    have := h7.sc
    rw [h5] at this
    exact this
  refine ⟨s1, vm1, h4, h4', h7.core.ready, hst, h7.rest, hfr, ⟨ρ, holding_of_core hn h7.core⟩, fun n => ?_⟩
  have U : ∀ {k vm'}, stepN E (guarded (stdFuns E other)) k vm1 = .ok vm' → stepN E (stdFuns E other) k vm1 = .ok vm' := stepN_under guarded_under
  rcases runsOf h3 hP he hsz (guarded_ok hF) hE (libCtx_ok hE) h5 rfl h6 n with ⟨_, k, vm', j1, j2⟩ | hr
  · exact .inl ⟨k, vm', U (Ctx.stepN_ok j1), j2⟩
  refine .inr ?_
  cases hex : Lang.exec ⟨E, T.strtof, Lang.stdLib⟩ n b s1 with
  | ok vs s =>
    rw [hex] at hr
    obtain ⟨k, vm2, q, k1, k2⟩ := hr
    cases Lang.exec_stat (show Lang.isStat b = true from Lang.syn_kind hs) hex
    obtain ⟨ρ', as', k3⟩ := k1
    refine ⟨_, run_stops h7.core.ready (U k2) (by simp), rfl, ?_, k3.rest, ?_, ρ', ?_⟩
    · have := k3.stack
      cases k3.reps
      exact this
    · have := k3.depth
      exact List.length_eq_zero_iff.mp (this.trans rfl)
    · have k4 := holding_of_core hn k3.core
      exact { k4 with }
  | ret v s => rw [hex] at hr; exact hr
  | err e =>
    rw [hex] at hr
    obtain ⟨k, vm2, k1, k2, k3⟩ := hr
    exact ⟨vm2, run_stops h7.core.ready (U k1) (by rw [k2]; simp), k2, k3⟩
  | odd => trivial
  | time =>
    rw [hex] at hr
    obtain ⟨k, vm2, k1, k2, k3⟩ := hr
    intro j hj
    exact run_goes (U k2) k3 j (by omega)

/-- **C67**: a program that uses the machine's library does what it means.  As C65, but the bytecode is loaded by all of `buzzvm_set_bcode`, which
registers the library, and the C functions of the library have their meaning: the functions of types, of `string` (but `tofloat`) and of `math`
for integers, floats and strings, as far as they are defined.  The others are any functions that keep the machine's invariant.  The script's
execution
* ends with an empty stack and the state the program ends in, if it ends;
* stops with the error the program ends in;
* does not stop within `n` steps if the program's meaning needs more than `n` rounds of a loop or nested calls,
unless the machine comes to have more than 65533 different strings. -/
theorem C67_program (fs : FS) (T : Tools) (order : List (Nat × Bytes) → List (Nat × Bytes)) (ho : ∀ l, (order l).Perm l) (pre : List Bytes) (fname path text : Bytes)
    (hf : fs fname = some (path, text)) (toks : List Tok) (fin : Bool) (hx : Lexed fs [path] path 1 0 (text ++ [10]) toks fin) (hpos : ∀ t ∈ toks, PosOk (mark t))
    (ts : List T2) (ht : (toks.filter (fun t => decide (t.type ≠ .statend))).map (fun t => (t.type, t.value)) = ts) (hts : ts ≠ [])
    (b : Ast) (hs : Syn .stats ts b) (hP : Link.Program T pre b) (hroom : (Link.stringsOf pre b).length ≤ 65000)
    (E : Env) (other : CFuns) (he : E.endian = T.endian) (hF : FOk other) (hE : Obj.StrcmpLaw E.sc) (robot : Nat) (hrob : robot < 65536) :
    ∃ file code dbg, (∃ N, ∀ m ≥ N, compile fs m pre fname = .ok (some file)) ∧ asm T order file = .ok (some (code, dbg)) ∧
      code.length ≤ 180 * phrases b + 13 + ((Link.stringsOf pre b).map (fun s => s.length + 1)).sum ∧
      (code.length ≤ 2147483647 → ∀ s0, Lang.initial b = .ok () s0 →
        ∃ s1 vm1, Lang.install robot s0 = .ok () s1 ∧ (∃ N, ∀ m ≥ N, setBcode E (stdFuns E other) m robot code VM.new = .ok vm1) ∧
          vm1.state = .ready ∧ vm1.stack = [] ∧ vm1.rest = [] ∧ vm1.frames = [] ∧ Held (Link.stringsOf pre b) s1 vm1 ∧
          ∀ n, (∃ k vm', stepN E (stdFuns E other) k vm1 = .ok vm' ∧ 65533 < vm'.strings.id2str.length) ∨ match Lang.exec ⟨E, T.strtof, Lang.stdLib⟩ n b s1 with
            | .ok _ s => ∃ vm2, (∃ N, ∀ m ≥ N, VM.run E (stdFuns E other) m vm1 = .ok vm2) ∧ vm2.state = .done ∧ vm2.stack = [] ∧ vm2.rest = [] ∧ vm2.frames = [] ∧ Held (Link.stringsOf pre b) s vm2
            | .ret _ _ => False
            | .err e => ∃ vm2, (∃ N, ∀ m ≥ N, VM.run E (stdFuns E other) m vm1 = .ok vm2) ∧ vm2.state = .error ∧ vm2.error = e
            | .odd => True
            | .time => ∀ k ≤ n, VM.run E (stdFuns E other) k vm1 = .hang) := by
  obtain ⟨lex, h1, h2⟩ := C64_tokens fs fname path text hf toks fin hx
  exact tokens_library fs T order ho pre fname lex h1 toks h2 hpos ts ht hts b hs hP hroom E other he hF hE robot hrob

/-! ### A concrete program -/

/-- `function type(v) { return 7 }`, newline, `x=type(5)`, newline, `y=math.max(3,4)`. -/
def demoParts : List Part :=
  [.word 3, .gap, .name (chars "type"), .mark 3, .name [118], .mark 4, .gap, .mark 1, .gap, .word 4, .gap, .num [55], .gap, .mark 2, .nl,
   .name [120], .mark 9, .name (chars "type"), .mark 3, .num [53], .mark 4, .nl,
   .name [121], .mark 9, .name (chars "math"), .mark 8, .name (chars "max"), .mark 3, .num [51], .mark 7, .num [52], .mark 4]

def demoText : Bytes := chars "function type(v) { return 7 }\nx=type(5)\ny=math.max(3,4)"

def demoFs : FS := fun n => if n = [97] then some ([97], demoText) else none

def demo : Ast :=
  .seq (.func (chars "type") [[118]] (.seq (.ret (.num [55])) .skip))
    (.seq (.assign (.id [120]) (.call (.id (chars "type")) (.arg .noArg (.num [53]))))
      (.seq (.assign (.id [121]) (.call (.field (.id (chars "math")) (chars "max")) (.arg (.arg .noArg (.num [51])) (.num [52])))) .skip))

def demoToks : List T2 :=
  [(.fun_, chars "function"), (.id, chars "type"), (.paropen, []), (.id, [118]), (.parclose, []), (.blockopen, []), (.return_, chars "return"), (.const, [55]), (.blockclose, []),
   (.id, [120]), (.assign, []), (.id, chars "type"), (.paropen, []), (.const, [53]), (.parclose, []),
   (.id, [121]), (.assign, []), (.id, chars "math"), (.dot, []), (.id, chars "max"), (.paropen, []), (.const, [51]), (.listsep, []), (.const, [52]), (.parclose, [])]

theorem demo_syn : Syn .stats demoToks demo := by
  have num : ∀ t, Syn .cond [(.const, t)] (.num t) := fun t => syn_cond (syn_expr .num)
  have body := Syn.blk (v := []) (w := []) (.stats (.simple (.ret (v := chars "return") (num [55]))) .stats0 (by simp))
  have c1 : Syn .ref ([(.id, chars "type")] ++ (.paropen, []) :: ([(.const, [53])] ++ [(.parclose, [])])) (.call (.id (chars "type")) (.arg .noArg (.num [53]))) :=
    .call .id (.arg1 (num [53]))
  have c2 : Syn .ref (([(.id, chars "math")] ++ [(.dot, []), (.id, chars "max")]) ++ (.paropen, []) :: (([(.const, [51])] ++ (.listsep, []) :: [(.const, [52])]) ++ [(.parclose, [])]))
      (.call (.field (.id (chars "math")) (chars "max")) (.arg (.arg .noArg (.num [51])) (.num [52]))) :=
    .call (.field .id) (.arg (.arg1 (num [51])) (num [52]))
  exact .stats (.func (u := chars "function") (v := []) (w := []) .one body)
    (.stats (.simple (.assign (v := []) .id (by simp) (syn_expr (.ref c1))))
      (.stats (.simple (.assign (v := []) .id (by simp) (syn_expr (.ref c2)))) .stats0 (by simp)) (by simp [Lang.bare])) (by simp [Lang.bare])

theorem demo_program (T : Tools) : Link.Program T [] demo where
  whole := rfl
  legal := by simp [demo, Lang.Legal]
  once := by simp [demo, Lang.functions, Lang.decls]
  nums := by
    have h : ∀ (t : Bytes) (v : Int), t ≠ [] → Clean t → 46 ∉ t → Lang.decimal t = some v → v.natAbs < 18446744073709551616 → Link.NumOk T t :=
      fun t v h1 h2 h3 h4 h5 => ⟨h1, h2, fun h => absurd h h3, fun _ => ⟨v, h4, h5⟩⟩
    intro t ht
    have ht : t ∈ ([[55], [53], [51], [52]] : List Bytes) := ht
    simp only [List.mem_cons, List.not_mem_nil, or_false] at ht
    rcases ht with rfl | rfl | rfl | rfl
    · exact h _ 7 (by decide) (by unfold Clean; decide) (by decide) (by decide) (by decide)
    · exact h _ 5 (by decide) (by unfold Clean; decide) (by decide) (by decide) (by decide)
    · exact h _ 3 (by decide) (by unfold Clean; decide) (by decide) (by decide) (by decide)
    · exact h _ 4 (by decide) (by unfold Clean; decide) (by decide) (by decide) (by decide)
  strs := by
    show ∀ s ∈ ([chars "type", [120], [121], chars "math", chars "max"] : List Bytes), ∀ c ∈ s, c ≠ 0 ∧ c ≠ 10
    decide
  count := by decide
  small := by decide

theorem demo_text : parts (demoParts ++ [Part.nl]) = demoText ++ [10] := by decide +kernel

/-- The state before the program: the function is known. -/
def demoStart : St := ⟨[(chars "type", .clo 0)], [.fn [[118]] (.seq (.ret (.num [55])) .skip) [(Lang.self, .nil)]], .top⟩

theorem demo_starts : Lang.initial demo = .ok () demoStart := by
  unfold Lang.initial demo demoStart
  rfl

/-- What the program means: its own function has been replaced, so `x` is not 7 but the name of the type; `y` is 4. -/
theorem demo_means {s1 : St} (h : Lang.install 5 demoStart = .ok () s1) :
    ∃ s, Lang.exec ⟨someEnv, someTools.strtof, Lang.stdLib⟩ 10 demo s1 = .ok [] s ∧ globalVal [120] s = .str 0 (chars "integer") ∧ globalVal [121] s = .int 4 := by
  have key : (match Lang.install 5 demoStart with
    | .ok _ s1 => (match Lang.exec ⟨someEnv, someTools.strtof, Lang.stdLib⟩ 10 demo s1 with
      | .ok [] s => decide (globalVal [120] s = .str 0 (chars "integer") ∧ globalVal [121] s = .int 4)
      | _ => false)
    | _ => false) = true := by decide +kernel
  rw [h] at key
  simp only at key
  generalize Lang.exec ⟨someEnv, someTools.strtof, Lang.stdLib⟩ 10 demo s1 = r at key
  cases r with
  | ok vs s =>
    cases vs with
    | nil => exact ⟨s, rfl, of_decide_eq_true key⟩
    | cons => cases key
  | _ => cases key

/-- The program is compiled, loaded with the library and executed, and ends with `y` being 4, unless it fills the table of strings. -/
example (order : List (Nat × Bytes) → List (Nat × Bytes)) (ho : ∀ l, (order l).Perm l) (other : CFuns) (hF : FOk other) :
    ∃ file code dbg vm1, (∃ N, ∀ m ≥ N, compile demoFs m [] [97] = .ok (some file)) ∧ asm someTools order file = .ok (some (code, dbg)) ∧
      (∃ N, ∀ m ≥ N, setBcode someEnv (stdFuns someEnv other) m 5 code VM.new = .ok vm1) ∧
      ((∃ k vm', stepN someEnv (stdFuns someEnv other) k vm1 = .ok vm' ∧ 65533 < vm'.strings.id2str.length) ∨
        ∃ vm2, (∃ N, ∀ m ≥ N, VM.run someEnv (stdFuns someEnv other) m vm1 = .ok vm2) ∧ vm2.state = .done ∧ vm2.stack = [] ∧
          ∃ a, FMap.get vm2.gsyms 2 = some a ∧ Holds vm2.heap a (.atom (.int 4))) := by
  obtain ⟨file, code, dbg, h1, h2, h3, h4⟩ := C67_program demoFs someTools order ho [] [97] [97] demoText rfl (partToks [97] 1 0 (demoParts ++ [Part.nl])) true
    (demo_text ▸ parts_lexed demoFs [[97]] [97] (demoParts ++ [Part.nl]) 1 0 (by decide +kernel)) (by
      have : (∀ t ∈ partToks [97] 1 0 (demoParts ++ [Part.nl]), (mark t).line < 100 ∧ (mark t).col < 100 ∧ (mark t).fname = [97]) := by decide +kernel
      intro t ht
      obtain ⟨a1, a2, a3⟩ := this t ht
      refine ⟨by omega, by omega, ?_, ?_⟩
      · rw [a3]; decide
      · rw [a3]; rintro x ⟨⟩; decide)
    demoToks (by decide +kernel) (by decide) demo demo_syn (demo_program someTools) (by decide) someEnv other rfl hF Obj.strcmpDiff_law 5 (by decide)
  obtain ⟨s1, vm1, i1, h5, _, _, _, _, _, h7⟩ := h4 (Nat.le_trans h3 (by decide)) demoStart demo_starts
  obtain ⟨s, i2, _, i3⟩ := demo_means i1
  refine ⟨file, code, dbg, vm1, h1, h2, h5, ?_⟩
  generalize Lang.exec ⟨someEnv, someTools.strtof, Lang.stdLib⟩ = ex at h7 i2
  rcases h7 10 with h7 | h7
  · exact .inl h7
  refine .inr ?_
  rw [i2] at h7
  obtain ⟨vm2, h8, h9, h10, _, _, ρ, h11⟩ := h7
  refine ⟨vm2, h8, h9, h10, ?_⟩
  obtain ⟨k1, k2⟩ := h11.globals 2 [121] rfl
  rw [i3] at k1 k2
  cases hg : FMap.get vm2.gsyms 2 with
  | none => cases k2 hg
  | some a =>
    obtain ⟨c, c1, c2⟩ := k1 a hg
    refine ⟨a, rfl, ?_⟩
    cases c <;> cases c2
    exact c1

end Buzz.Props
