import Verif.Props.Library
import Verif.SessionSim
import Verif.TableScript

/-
Robots: property C71.

The specification is the meaning of a robot's life (`Verif/Session.lean`: `Lang.life`): the script, its function `init`, and in every round what the
host writes into variables followed by the function `step`.  What the controller does with the machine is `control`, in the same file.
-/
namespace Buzz.Props

open Buzz.Msg Buzz.Lex Buzz.Debug Buzz.Asm Buzz.Parser Buzz.Comp Buzz.VM Buzz.Heap Buzz.Sim Buzz.Link
open Buzz.Lang (Ast Thing Scope Shape St T2 Syn complete Legal globalVal valueOf self)

/-! ## C71 -/

/-- **C71**: a robot does in all rounds what its program means.  The program is compiled, loaded with the library, set up by the host's commands
`setup`, executed, and its function `init` called; then in every round the host's commands of that round are carried out and the function `step` is
called, whose value is dropped.  All this
* ends with a machine that is ready for the next round, with nothing on its stacks, in the state that the rounds mean;
* leaves the machine in an error state with the error of the first call that fails: nothing happens in later rounds;
* does not end if a call does not,
unless the machine comes to have more than 65533 different strings, or there is no room for the strings of a command. -/
theorem C71_robot (fs : FS) (T : Tools) (order : List (Nat × Bytes) → List (Nat × Bytes)) (ho : ∀ l, (order l).Perm l) (pre : List Bytes) (fname path text : Bytes)
    (hf : fs fname = some (path, text)) (toks : List Tok) (fin : Bool) (hx : Lexed fs [path] path 1 0 (text ++ [10]) toks fin) (hpos : ∀ t ∈ toks, PosOk (mark t))
    (ts : List T2) (ht : (toks.filter (fun t => decide (t.type ≠ .statend))).map (fun t => (t.type, t.value)) = ts) (hts : ts ≠ [])
    (b : Ast) (hs : Syn .stats ts b) (hP : Link.Program T pre b) (hroom : (Link.stringsOf pre b).length ≤ 65000)
    (E : Env) (other : CFuns) (he : E.endian = T.endian) (hF : FOk other) (hE : Obj.StrcmpLaw E.sc) (robot : Nat) (hrob : robot < 65536)
    (init step : Bytes) (hinit : init ∈ Link.stringsOf pre b) (hstep : step ∈ Link.stringsOf pre b) :
    ∃ file code dbg, (∃ N, ∀ m ≥ N, compile fs m pre fname = .ok (some file)) ∧ asm T order file = .ok (some (code, dbg)) ∧
      code.length ≤ 180 * phrases b + 13 + ((Link.stringsOf pre b).map (fun s => s.length + 1)).sum ∧
      (code.length ≤ 2147483647 → ∀ s0, Lang.initial b = .ok () s0 →
        ∃ s1 vm1, Lang.install robot s0 = .ok () s1 ∧ (∃ N, ∀ m ≥ N, setBcode E (stdFuns E other) m robot code VM.new = .ok vm1) ∧
          ∀ (setup : List Cmd) (rs : List (List Cmd)), (∀ c ∈ setup, Link.Suits pre b c) → (∀ cs ∈ rs, ∀ c ∈ cs, Link.Suits pre b c) →
          ∀ n, ControlCrowd E (stdFuns E other) robot init step setup rs vm1 ∨ match Lang.life ⟨E, T.strtof, Lang.stdLib⟩ n robot init step setup rs b s1 with
            | .ok _ s => ∃ vm2, (∃ N, ∀ m ≥ N, VM.control E (stdFuns E other) m robot init step setup rs vm1 = .ok vm2) ∧ vm2.state = .ready ∧ vm2.stack = [] ∧ vm2.rest = [] ∧ vm2.frames = [] ∧
                Held (Link.stringsOf pre b) s vm2
            | .ret _ _ => False
            | .err e => ∃ vm2, (∃ N, ∀ m ≥ N, VM.control E (stdFuns E other) m robot init step setup rs vm1 = .ok vm2) ∧ vm2.state = .error ∧ vm2.error = e
            | .odd => True
            | .time => ∀ m < n, VM.control E (stdFuns E other) m robot init step setup rs vm1 = .hang) := by
  obtain ⟨lex, hl, N, hx⟩ := C64_tokens fs fname path text hf toks fin hx
  obtain ⟨file, o, cs, dbg, h1, h2, h3, _⟩ := source_ok ho hl hx hpos ht hts hs hP
  have hsize := h3.size
  rw [show (stringBytes (Link.stringsOf pre b)).length = ((Link.stringsOf pre b).map (fun s => s.length + 1)).sum by simp [stringBytes, List.length_flatMap]] at hsize
  refine ⟨file, _, dbg, h1, h2, hsize, fun hsz s0 hi => ?_⟩
  obtain ⟨s1, vm1, h4, h4', h5, h6⟩ := equips h3 hP hroom he hsz hF hE hrob hi
  refine ⟨s1, vm1, h4, h4', fun setup rs hfs hfr n => ?_⟩
  have hn : ∀ i x, (Link.stringsOf pre b)[i]? = some x → FMap.get (libCtx T pre b o cs E other).strings x = some i := numbered_at (Link.stringsOf_nodup pre b) hP.count
  obtain ⟨ρ, as, h7⟩ := h6
  have hid : Idle (libCtx T pre b o cs E other) s1 vm1 := by
    have hst := h7.stack
    cases h7.reps
    have hsc := h7.sc
    rw [h5] at hsc
    exact ⟨h5, hsc, h7.rest, hst, rfl, ⟨ρ, h7.core⟩, _, h7.pc, pos_lt h3 hP he hsz⟩
  refine (control_sim h3 hP he hsz hF hE (Lang.syn_kind hs) hrob hinit hstep hfs hfr hid h7.pc n).imp_right fun key => ?_
  cases hlife : Lang.life ⟨E, T.strtof, Lang.stdLib⟩ n robot init step setup rs b s1 with
  | ok u s =>
    rw [hlife] at key
    obtain ⟨nf, vm2, k1, k2⟩ := key
    obtain ⟨ρ', k3⟩ := k2.core
    exact ⟨vm2, k1.1, k3.ready, k2.stack, k2.rest, k2.frames, ρ', holding_of_core (K := botCtx T pre b o cs E other nf) hn k3⟩
  | ret u s => rw [hlife] at key; exact key
  | err e =>
    rw [hlife] at key
    obtain ⟨vm2, k1, k2⟩ := key
    exact ⟨vm2, k1.1, k2⟩
  | odd => trivial
  | time => rw [hlife] at key; exact key

/-- **C71**: after an error the controller does nothing more to the machine, whatever the later rounds are. -/
theorem C71_stopped (E : Env) (F : CFuns) (m robot : Nat) (step : Bytes) (rs : List (List Cmd)) (vm : VM) (h : vm.state ≠ .ready) : controlSteps E F m robot step rs vm = .ok vm :=
  controlSteps_stay h rs

/-! ### A robot that adds up what its sensor reads -/

/-- `function init() { n=0 }`, newline, `function step() { n=n+v }`. -/
def botParts : List Part :=
  [.word 3, .gap, .name (chars "init"), .mark 3, .mark 4, .gap, .mark 1, .gap, .name [110], .mark 9, .num [48], .gap, .mark 2, .nl,
   .word 3, .gap, .name (chars "step"), .mark 3, .mark 4, .gap, .mark 1, .gap, .name [110], .mark 9, .name [110], .mark 19, .name [118], .gap, .mark 2]

def botText : Bytes := chars "function init() { n=0 }\nfunction step() { n=n+v }"

def botFs : FS := fun n => if n = [97] then some ([97], botText) else none

def botInit : Ast := .seq (.assign (.id [110]) (.num [48])) .skip

def botStep : Ast := .seq (.assign (.id [110]) (.bin .add (.id [110]) (.id [118]))) .skip

def bot : Ast := .seq (.func (chars "init") [] botInit) (.seq (.func (chars "step") [] botStep) .skip)

theorem bot_text : parts (botParts ++ [Part.nl]) = botText ++ [10] := by decide +kernel

def botToks : List T2 :=
  [(.fun_, chars "function"), (.id, chars "init"), (.paropen, []), (.parclose, []), (.blockopen, []), (.id, [110]), (.assign, []), (.const, [48]), (.blockclose, []),
   (.fun_, chars "function"), (.id, chars "step"), (.paropen, []), (.parclose, []), (.blockopen, []), (.id, [110]), (.assign, []), (.id, [110]), (.addsub, [43]), (.id, [118]), (.blockclose, [])]

theorem bot_syn : Syn .stats botToks bot := by
  have b1 : Syn .blk _ botInit := Syn.blk (v := []) (w := []) (.stats (.simple (.assign (v := []) .id (by simp) (syn_expr (.num (t := [48]))))) .stats0 (by simp))
  have b2 : Syn .blk _ botStep := Syn.blk (v := []) (w := [])
    (.stats (.simple (.assign (v := []) .id (by simp) (.expr (.sum (.sum1 (syn_prod (.ref (.id (x := [110]))))) .add (syn_prod (.ref (.id (x := [118])))))))) .stats0 (by simp))
  exact .stats (.func (u := chars "function") (v := []) (w := []) .nil b1) (.stats (.func (u := chars "function") (v := []) (w := []) .nil b2) .stats0 (by simp)) (by simp [Lang.bare])

theorem bot_program (T : Tools) : Link.Program T [] bot where
  whole := rfl
  legal := by simp [bot, botInit, botStep, Lang.Legal, Lang.decls, Lang.Shape.ext]
  once := by simp only [bot, Lang.functions, Lang.decls]; decide
  nums := by
    intro t ht
    have ht : t ∈ ([[48]] : List Bytes) := ht
    rw [List.mem_singleton] at ht
    subst ht
    exact ⟨by decide, by unfold Clean; decide, fun h => absurd h (by decide), fun _ => ⟨0, by decide, by decide⟩⟩
  strs := by
    show ∀ s ∈ ([chars "init", [110], chars "step", [118]] : List Bytes), ∀ c ∈ s, c ≠ 0 ∧ c ≠ 10
    decide
  count := by decide
  small := by decide

/-- The state before the program: the functions are known. -/
def botStart : St := ⟨[(chars "step", .clo 1), (chars "init", .clo 0)], [.fn [] botInit [(self, .nil)], .fn [] botStep [(self, .nil)]], .top⟩

theorem bot_starts : Lang.initial bot = .ok () botStart := by
  unfold Lang.initial bot botStart
  rfl

/-- What the host does in a round: it writes the reading into `v`. -/
def reading (v : Int) : List Cmd := [.name "v", .int v, .store]

/-- The robot's program is there, and `n` is `k`. -/
def BotAt (k : Int) (s : St) : Prop :=
  ∃ g st, s = ⟨g, st, .top⟩ ∧ valueOf (chars "step") g = some (.clo 1) ∧ st[1]? = some (.fn [] botStep [(self, .nil)]) ∧ valueOf [110] g = some (.int k)

theorem exec_is (H : Lang.Host) (n : Nat) (a : Ast) : ∃ run, Lang.exec H n a = Lang.eval H n run a false := by
  cases n with
  | zero => exact ⟨_, rfl⟩
  | succ n => exact ⟨_, rfl⟩

theorem call_body {H : Lang.Host} {n l : Nat} {x : Bytes} {b : Ast} {g g' : List (Bytes × Obj)} {st st' : List Thing} {env : List (Bytes × Obj)} (hx : valueOf x g = some (.clo l))
    (hl : st[l]? = some (.fn [] b [(self, .nil)])) (hb : ∀ run, Lang.eval H n run b false ⟨g, st, .fn [(self, .nil)]⟩ = .ok [] ⟨g', st', .fn env⟩) :
    Lang.callGlobal H n x ⟨g, st, .top⟩ = .ok .nil ⟨g', st', .top⟩ := by
  unfold Lang.callGlobal
  rw [show globalVal x ⟨g, st, .top⟩ = .clo l by unfold globalVal; rw [hx]; rfl]
  simp only [hl]
  rw [apply_eq (by unfold Lang.limit; simp), bind_eq (look_some (s := ⟨g, st, .top⟩) hl)]
  simp only
  rw [if_pos (by unfold Lang.limit; simp)]
  unfold Lang.inFunction
  obtain ⟨run, hr⟩ := exec_is H n b
  rw [hr]
  simp only [List.zip_nil_left, List.append_nil]
  rw [hb run]

theorem bot_round (H : Lang.Host) (n robot : Nat) {nf : Nat} (hn : nf ≤ 65535) {k v : Int} {s : St} (h : BotAt k s) (hv : In32 (k + v)) :
    ∃ s', Lang.round H n robot nf (chars "step") (reading v) s = .ok () s' ∧ BotAt (k + v) s' := by
  obtain ⟨g, st, rfl, h1, h2, h3⟩ := h
  have e1 : Lang.hostRegs robot (reading v) nf ⟨g, st, .top⟩ = .ok nf ⟨putG [118] (.int v) g, st, .top⟩ := by
    show (if _ ∧ nf ≤ 65535 then _ else _) = _
    rw [if_pos ⟨rfl, hn⟩]
    rfl
  have e2 : Lang.callGlobal H n (chars "step") ⟨putG [118] (.int v) g, st, .top⟩ = .ok .nil ⟨putG [110] (.int (k + v)) (putG [118] (.int v) g), st, .top⟩ := by
    refine call_body (l := 1) (env := [(self, .nil)]) ((putG_ne (by decide) _ _).trans h1) h2 fun run => ?_
    refine ev_seq (ev_gset (v := .int (k + v)) rfl (ev_bin rfl rfl (ev_glob rfl ((putG_ne (by decide) _ _).trans h3)) (ev_glob rfl (putG_same _ _ _)) (ev_add hv)) rfl) ev_skip
  refine ⟨⟨putG [110] (.int (k + v)) (putG [118] (.int v) g), st, .top⟩, ?_, _, _, rfl, ?_, h2, putG_same _ _ _⟩
  · unfold Lang.round
    rw [bind_eq e1, if_pos rfl, bind_eq e2]
    rfl
  · rw [putG_ne (by decide), putG_ne (by decide)]
    exact h1

/-- After rounds with any readings `n` is their sum. -/
theorem bot_rounds (H : Lang.Host) (n robot : Nat) {nf : Nat} (hn : nf ≤ 65535) : ∀ (vs : List Int) {k : Int} {s : St}, BotAt k s → 0 ≤ k → (∀ v ∈ vs, 0 ≤ v) → k + vs.sum ≤ 2147483647 →
    ∃ s', Lang.rounds H n robot nf (chars "step") (vs.map reading) s = .ok () s' ∧ BotAt (k + vs.sum) s'
  | [], k, s, h, _, _, _ => ⟨s, rfl, by simpa using h⟩
  | v :: vs, k, s, h, hk, hv, hs => by
    rw [List.sum_cons] at hs ⊢
    have h0 : 0 ≤ v := hv v (List.mem_cons_self ..)
    have h1 : 0 ≤ vs.sum := List.sum_nonneg fun v hm => hv v (List.mem_cons_of_mem _ hm)
    obtain ⟨s1, e1, h2⟩ := bot_round H n robot hn h (v := v) ⟨by omega, by omega⟩
    obtain ⟨s2, e2, h3⟩ := bot_rounds H n robot hn vs h2 (by omega) (fun v hm => hv v (List.mem_cons_of_mem _ hm)) (by omega)
    refine ⟨s2, ?_, by rw [← add_assoc]; exact h3⟩
    rw [List.map_cons, Lang.rounds, bind_eq e1]
    exact e2

/-- The life of this robot. -/
theorem bot_life (H : Lang.Host) (n robot : Nat) {s1 : St} (h : Lang.install robot botStart = .ok () s1) (vs : List Int) (hv : ∀ v ∈ vs, 0 ≤ v) (hs : vs.sum ≤ 2147483647) :
    ∃ s, Lang.life H n robot (chars "init") (chars "step") [] (vs.map reading) bot s1 = .ok () s ∧ globalVal [110] s = .int vs.sum := by
  obtain ⟨s1', i1, i2⟩ := C67_library robot botStart
  rw [h] at i1
  cases i1
  obtain ⟨g, st, sc⟩ := s1
  obtain rfl : sc = .top := i2.scope
  have hg : ∀ x v, x ∉ libGlobals.map ascii → valueOf x botStart.globals = some v → v ≠ .nil → valueOf x g = some v := by
    intro x v hx hv hn
    have := i2.others x hx
    unfold globalVal at this
    rw [hv] at this
    cases hgx : valueOf x g with
    | none => rw [hgx] at this; exact absurd this.symm hn
    | some w => rw [hgx] at this; exact congrArg some this
  have g1 : valueOf (chars "init") g = some (.clo 0) := hg _ _ (by decide +kernel) rfl (by simp)
  have g2 : valueOf (chars "step") g = some (.clo 1) := hg _ _ (by decide +kernel) rfl (by simp)
  have t0 : st[0]? = some (.fn [] botInit [(self, .nil)]) := i2.old 0 (by decide)
  have t1 : st[1]? = some (.fn [] botStep [(self, .nil)]) := i2.old 1 (by decide)
  have e0 : Lang.hostRegs robot [] 65 ⟨g, st, .top⟩ = .ok 65 ⟨g, st, .top⟩ := rfl
  have e1 : Lang.exec H n bot ⟨g, st, .top⟩ = .ok [] ⟨g, st, .top⟩ := by
    obtain ⟨run, hr⟩ := exec_is H n bot
    rw [hr]
    have f : ∀ x b, Lang.eval H n run (.func x [] b) false ⟨g, st, .top⟩ = .ok [] ⟨g, st, .top⟩ := fun _ _ => by rw [Lang.eval]; rfl
    exact ev_seq (f _ _) (ev_seq (f _ _) ev_skip)
  have e2 : Lang.callGlobal H n (chars "init") ⟨g, st, .top⟩ = .ok .nil ⟨putG [110] (.int 0) g, st, .top⟩ :=
    call_body (l := 0) (env := [(self, .nil)]) g1 t0 fun run => ev_seq (ev_gset (v := .int 0) rfl (ev_num const0) rfl) ev_skip
  obtain ⟨_, e3, g', st', rfl, _, _, h5⟩ := bot_rounds H n robot (nf := 65) (by decide) vs (k := 0) (s := ⟨putG [110] (.int 0) g, st, .top⟩)
    ⟨_, _, rfl, (putG_ne (by decide) _ _).trans g2, t1, putG_same _ _ _⟩ (le_refl _) hv (by omega)
  refine ⟨⟨g', st', .top⟩, ?_, ?_⟩
  · unfold Lang.life
    rw [bind_eq e0, bind_eq e1, bind_eq e2, e3]
  · unfold globalVal
    rw [h5, zero_add]
    rfl

/-- The robot on the machine: whatever the sensor reads in however many rounds, in the end the variable `n` holds the sum of the readings, unless the
table of strings is filled. -/
theorem C71_sum (order : List (Nat × Bytes) → List (Nat × Bytes)) (ho : ∀ l, (order l).Perm l) (other : CFuns) (hF : FOk other) :
    ∃ file code dbg vm1, (∃ N, ∀ m ≥ N, compile botFs m [] [97] = .ok (some file)) ∧ asm someTools order file = .ok (some (code, dbg)) ∧
      (∃ N, ∀ m ≥ N, setBcode someEnv (stdFuns someEnv other) m 5 code VM.new = .ok vm1) ∧
      ∀ vs : List Int, (∀ v ∈ vs, 0 ≤ v) → vs.sum ≤ 2147483647 →
        ControlCrowd someEnv (stdFuns someEnv other) 5 (chars "init") (chars "step") [] (vs.map reading) vm1 ∨
        ∃ vm2, (∃ N, ∀ m ≥ N, VM.control someEnv (stdFuns someEnv other) m 5 (chars "init") (chars "step") [] (vs.map reading) vm1 = .ok vm2) ∧ vm2.state = .ready ∧ vm2.stack = [] ∧
          ∃ a, FMap.get vm2.gsyms 1 = some a ∧ Holds vm2.heap a (.atom (.int vs.sum)) := by
  obtain ⟨file, code, dbg, h1, h2, h3, h4⟩ := C71_robot botFs someTools order ho [] [97] [97] botText rfl (partToks [97] 1 0 (botParts ++ [Part.nl])) true
    (bot_text ▸ parts_lexed botFs [[97]] [97] (botParts ++ [Part.nl]) 1 0 (by decide +kernel)) (by
      have : (∀ t ∈ partToks [97] 1 0 (botParts ++ [Part.nl]), (mark t).line < 100 ∧ (mark t).col < 100 ∧ (mark t).fname = [97]) := by decide +kernel
      intro t ht
      obtain ⟨a1, a2, a3⟩ := this t ht
      refine ⟨by omega, by omega, ?_, ?_⟩
      · rw [a3]; decide
      · rw [a3]; rintro x ⟨⟩; decide)
    botToks (by decide +kernel) (by decide) bot bot_syn (bot_program someTools) (by decide) someEnv other rfl hF Obj.strcmpDiff_law 5 (by decide)
    (chars "init") (chars "step") (by decide) (by decide)
  obtain ⟨s1, vm1, i1, h5, h7⟩ := h4 (Nat.le_trans h3 (by decide)) botStart bot_starts
  refine ⟨file, code, dbg, vm1, h1, h2, h5, fun vs hv hs => ?_⟩
  obtain ⟨s, i2, i3⟩ := bot_life ⟨someEnv, someTools.strtof, Lang.stdLib⟩ 0 5 i1 vs hv hs
  have hfine : ∀ cs ∈ vs.map reading, ∀ c ∈ cs, Link.Suits [] bot c := by
    intro cs hcs c hc
    obtain ⟨v, hm, rfl⟩ := List.mem_map.mp hcs
    have h0 := hv v hm
    have h1 : v ≤ vs.sum := List.single_le_sum hv v hm
    simp only [reading, List.mem_cons, List.not_mem_nil, or_false] at hc
    rcases hc with rfl | rfl | rfl
    · refine ⟨?_, fun h => by cases h⟩
      show Obj.CStr (ascii "v")
      unfold Obj.CStr
      decide
    · exact ⟨⟨by omega, by omega⟩, fun h => by cases h⟩
    · exact ⟨trivial, fun h => by cases h⟩
  refine (h7 [] (vs.map reading) (by simp) hfine 0).imp_right fun key => ?_
  rw [i2] at key
  obtain ⟨vm2, h8, h9, h10, _, _, ρ, h11⟩ := key
  refine ⟨vm2, h8, h9, h10, ?_⟩
  obtain ⟨k1, k2⟩ := h11.globals 1 [110] rfl
  rw [i3] at k1 k2
  cases hg : FMap.get vm2.gsyms 1 with
  | none => cases k2 hg
  | some a =>
    obtain ⟨c, c1, c2⟩ := k1 a hg
    refine ⟨a, rfl, ?_⟩
    cases c with
    | atom o => cases c2; exact c1
    | _ => cases c2

end Buzz.Props
