import Verif.CompSize
import Verif.SemVals
import Verif.LexCases

/-
The compiler: properties C41-C43, C53 and C65.

The specification consists of the grammar (`Verif/Syntax.lean`), the meaning of programs (`Verif/Sem.lean`) and the relations below,
which say when a machine holds the state of a program.  `Rep ρ h v a` (`Verif/Place.lean`) says that the object at address `a` of the
heap `h` is the value `v`, where `ρ` lists the addresses of the program's tables and functions.
-/
namespace Buzz.Props

open Buzz.Msg Buzz.Lex Buzz.Debug Buzz.Asm Buzz.Parser Buzz.Comp Buzz.VM Buzz.Heap Buzz.Sim Buzz.Link
open Buzz.Lang (Ast Thing Scope Shape St T2 Syn complete Legal globalVal)

/-! ### When a machine holds the state of a program -/

/-- The machine holds the state `s` of a program whose strings are `names`: string number `i` is the `i`-th name, every global variable
has its value, and so have the entries of the tables and the captured variables of the functions that are in the heap; `ρ` lists their
addresses, different for different locations. -/
structure Holding (names : List Bytes) (s : St) (vm : VM) (ρ : List Nat) : Prop where
  strings : ∀ i x, names[i]? = some x → FMap.get vm.strings.id2str i = some (x, true)
  locations : ρ.length = s.store.length
  different : ρ.Nodup
  globals : ∀ i x, names[i]? = some x →
    (∀ a, FMap.get vm.gsyms i = some a → Rep ρ vm.heap (globalVal x s) a) ∧ (FMap.get vm.gsyms i = none → globalVal x s = .nil)
  tables : ∀ (l a : Nat) es c, ρ[l]? = some a → s.store[l]? = some (.tab es) → Holds vm.heap a c → ∃ t, c = .tab t ∧ TabOk ρ vm.heap es t
  functions : ∀ (l a : Nat) ps b env c, ρ[l]? = some a → s.store[l]? = some (.fn ps b env) → Holds vm.heap a c →
    ∃ p xs, c = .clo true p xs ∧ List.Forall₂ (fun e x => Rep ρ vm.heap e.2 x) env xs
  hosts : ∀ (l a : Nat) n env c, ρ[l]? = some a → s.store[l]? = some (.host n env) → Holds vm.heap a c →
    ∃ xs, c = .clo false (n : Int) xs ∧ List.Forall₂ (fun v x => Rep ρ vm.heap v x) env xs

/-- The same without naming the addresses. -/
def Held (names : List Bytes) (s : St) (vm : VM) : Prop := ∃ ρ, Holding names s vm ρ

/-! ### Lemmas -/

theorem tokens_drain {fs : FS} : ∀ {n : Nat} {lex : List File} {ts : List Tok}, tokens fs n lex = .ok ts → ∃ fin, drain fs n lex = .ok (ts, fin) := by
  intro n
  induction n with
  | zero => intro lex ts h; cases h
  | succ n ih =>
    intro lex ts h
    rw [tokens] at h
    rw [drain]
    cases hx : nexttok fs n lex with
    | ok r =>
      rw [hx, Res.ok_bind] at h
      rw [Res.ok_bind]
      simp only at h ⊢
      split at h
      · rename_i ht
        rw [if_pos ht]
        cases h
        exact ⟨_, rfl⟩
      · rename_i ht
        rw [if_neg ht]
        cases hr : tokens fs n r.2 with
        | ok rs =>
          rw [hr, Res.ok_bind] at h
          cases h
          obtain ⟨fin, h2⟩ := ih hr
          rw [h2, Res.ok_bind]
          exact ⟨fin, rfl⟩
        | ub => rw [hr] at h; cases h
        | abort => rw [hr] at h; cases h
        | hang => rw [hr] at h; cases h
    | ub => rw [hx] at h; cases h
    | abort => rw [hx] at h; cases h
    | hang => rw [hx] at h; cases h

theorem step_stay {E : Env} {F : CFuns} {vm : VM} (h : vm.state ≠ .ready) : VM.step E F vm = .ok vm := by
  unfold VM.step
  rw [if_pos h]

theorem stepN_stay {E : Env} {F : CFuns} {vm : VM} (h : vm.state ≠ .ready) : ∀ k, stepN E F k vm = .ok vm := by
  intro k
  induction k with
  | zero => rfl
  | succ k ih => rw [stepN, step_stay h, Res.ok_bind]; exact ih

/-- A machine that stops is left by the script's execution as it stops. -/
theorem run_stops {E : Env} {F : CFuns} : ∀ {k : Nat} {vm vm1 : VM}, vm.state = .ready → stepN E F k vm = .ok vm1 → vm1.state ≠ .ready →
    ∃ N, ∀ m ≥ N, VM.run E F m vm = .ok vm1 := by
  intro k
  induction k with
  | zero => intro vm vm1 h1 h2 h3; cases h2; exact absurd h1 h3
  | succ k ih =>
    intro vm vm1 h1 h2 h3
    rw [stepN] at h2
    cases hs : VM.step E F vm with
    | ok vm2 =>
      rw [hs, Res.ok_bind] at h2
      by_cases h : vm2.state = .ready
      · obtain ⟨N, hN⟩ := ih h h2 h3
        refine ⟨N + 1, fun m hm => ?_⟩
        obtain ⟨m, rfl⟩ : ∃ j, m = j + 1 := ⟨m - 1, by omega⟩
        rw [VM.run, hs, Res.ok_bind, if_pos h]
        exact hN m (by omega)
      · rw [stepN_stay h] at h2
        cases h2
        refine ⟨1, fun m hm => ?_⟩
        obtain ⟨m, rfl⟩ : ∃ j, m = j + 1 := ⟨m - 1, by omega⟩
        rw [VM.run, hs, Res.ok_bind, if_neg h]
        rfl
    | ub => rw [hs] at h2; cases h2
    | abort => rw [hs] at h2; cases h2
    | hang => rw [hs] at h2; cases h2

/-- A machine that is ready after `k` steps has not stopped before. -/
theorem run_goes {E : Env} {F : CFuns} : ∀ {k : Nat} {vm vm1 : VM}, stepN E F k vm = .ok vm1 → vm1.state = .ready → ∀ n ≤ k, VM.run E F n vm = .hang := by
  intro k
  induction k with
  | zero => intro vm vm1 _ _ n hn; obtain rfl : n = 0 := by omega
            rfl
  | succ k ih =>
    intro vm vm1 h1 h2 n hn
    cases n with
    | zero => rfl
    | succ n =>
      rw [stepN] at h1
      cases hs : VM.step E F vm with
      | ok vm2 =>
        rw [hs, Res.ok_bind] at h1
        rw [VM.run, hs, Res.ok_bind]
        by_cases h : vm2.state = .ready
        · rw [if_pos h]
          exact ih h1 h2 n (by omega)
        · rw [stepN_stay h] at h1
          cases h1
          exact absurd h2 h
      | ub => rw [hs] at h1; cases h1
      | abort => rw [hs] at h1; cases h1
      | hang => rw [hs] at h1; cases h1

theorem holding_of_core {K : Ctx} {names : List Bytes} {ρ : List Nat} {s : St} {vm : VM} (hn : ∀ i x, names[i]? = some x → FMap.get K.strings x = some i)
    (c : Core K ρ s vm) : Holding names s vm ρ where
  strings i x h := c.strs x i (hn i x h)
  locations := c.len
  different := c.nodup
  globals i x h := c.globals x i (hn i x h)
  tables l a es d h1 h2 h3 := c.things l a _ d h1 h2 h3
  functions l a ps b env d h1 h2 h3 := by
    obtain ⟨p, xs, k1, k2, _⟩ := c.things l a _ d h1 h2 h3
    exact ⟨p, xs, k1, k2⟩
  hosts l a n env d h1 h2 h3 := by
    obtain ⟨_, xs, k1, k2⟩ := c.things l a _ d h1 h2 h3
    exact ⟨xs, k1, k2.1⟩

theorem numbered_at {ss : List Bytes} (hn : ss.Nodup) (hl : ss.length ≤ 65535) (i : Nat) (x : Bytes) (h : ss[i]? = some x) : FMap.get (numbered ss) x = some i := by
  have hi := (List.getElem?_eq_some_iff.mp h).1
  rw [numbered_get hn h, Nat.mod_eq_of_lt (by omega)]

theorem posOk_eof : PosOk (mark eofTok) := ⟨by decide, by decide, by decide, by decide⟩

/-- What the compiler and the assembler make of a program's text. -/
theorem source_ok {fs : FS} {T : Tools} {order : List (Nat × Bytes) → List (Nat × Bytes)} (ho : ∀ l, (order l).Perm l) {pre : List Bytes} {fname : Bytes} {lex : List File}
    (h1 : lexNew fs fname = some lex) {toks : List Tok} {N : Nat} (h2 : ∀ n ≥ N, tokens fs n lex = .ok (toks ++ [eofTok])) (hpos : ∀ t ∈ toks, PosOk (mark t))
    {ts : List T2} (ht : (toks.filter (fun t => decide (t.type ≠ .statend))).map (fun t => (t.type, t.value)) = ts) (hts : ts ≠ [])
    {b : Ast} (hs : Syn .stats ts b) (hP : Link.Program T pre b) :
    ∃ file o cs dbg, (∃ N, ∀ m ≥ N, compile fs m pre fname = .ok (some file)) ∧ asm T order file = .ok (some (bytecode T pre b o cs, dbg)) ∧ Result T pre b o cs ∧
      ∃ rest, file = heading (Link.stringsOf pre b) ++ 10 :: rest := by
  have ht' : ((toks ++ [eofTok]).filter (fun t => decide (t.type ≠ .statend))).map (fun t => (t.type, t.value)) = ts ++ [(.eof, [])] := by
    rw [List.filter_append, List.map_append, ht]
    rfl
  have hpos' : ∀ t ∈ toks ++ [eofTok], PosOk (mark t) := by
    intro t h
    rcases List.mem_append.mp h with h | h
    · exact hpos t h
    · rw [List.mem_singleton.mp h]; exact posOk_eof
  have hdr : ∃ fin', ∀ n ≥ N, drain fs n lex = .ok (toks ++ [eofTok], fin') := by
    obtain ⟨f0, e0⟩ := tokens_drain (h2 N le_rfl)
    refine ⟨f0, fun n hn => ?_⟩
    have mono : ∀ {n : Nat} {lex : List File} {r : List Tok × Bool}, drain fs n lex = .ok r → drain fs (n + 1) lex = .ok r := by
      intro n
      induction n with
      | zero => intro lex r h; cases h
      | succ n ih =>
        intro lex r h
        rw [drain] at h
        rw [drain]
        cases hx : nexttok fs n lex with
        | ok q =>
          rw [nexttok_succ (by rw [hx]; simp), hx, Res.ok_bind]
          rw [hx, Res.ok_bind] at h
          simp only at h ⊢
          split at h
          · rename_i he; rw [if_pos he]; exact h
          · rename_i he
            rw [if_neg he]
            cases hr : drain fs n q.2 with
            | ok rs => rw [ih hr]; rw [hr] at h; exact h
            | ub => rw [hr] at h; cases h
            | abort => rw [hr] at h; cases h
            | hang => rw [hr] at h; cases h
        | ub => rw [hx] at h; cases h
        | abort => rw [hx] at h; cases h
        | hang => rw [hx] at h; cases h
    induction n, hn using Nat.le_induction with
    | base => exact e0
    | succ n _ ih => exact mono ih
  obtain ⟨fin', hdr⟩ := hdr
  obtain ⟨p, o, file, ⟨n, h3⟩, h4, h5, h6, h7⟩ := compiled (T := T) (pre := pre) (fin := fin') hs hts hP ht' hpos'
  refine ⟨file, o, p.chunks, _, ⟨max N n, fun m hm => ?_⟩, C40_assembles T order ho file _ h6 (lookIn 0 (itemsOf T pre b o p.chunks)) (fun l hl => h5.links.labelAt (h5.links.refs l hl)), h5, h7⟩
  unfold compile
  rw [h1]
  simp only
  rw [hdr m (by omega), Res.ok_bind]
  simp only
  rw [h3 m (by omega), Res.ok_bind]
  simp only
  rw [h4]
  rfl

/-! ### Whole programs -/

/-- Programs given by the tokens of their text. -/
theorem tokens_program (fs : FS) (T : Tools) (order : List (Nat × Bytes) → List (Nat × Bytes)) (ho : ∀ l, (order l).Perm l) (pre : List Bytes) (fname : Bytes)
    (lex : List File) (hl : lexNew fs fname = some lex) (toks : List Tok) (hx : ∃ N, ∀ n ≥ N, tokens fs n lex = .ok (toks ++ [eofTok])) (hpos : ∀ t ∈ toks, PosOk (mark t))
    (ts : List T2) (ht : (toks.filter (fun t => decide (t.type ≠ .statend))).map (fun t => (t.type, t.value)) = ts) (hts : ts ≠ [])
    (b : Ast) (hs : Syn .stats ts b) (hP : Link.Program T pre b)
    (E : Env) (F : CFuns) (he : E.endian = T.endian) (hF : FOk F) (hE : Obj.StrcmpLaw E.sc) :
    ∃ file code dbg, (∃ N, ∀ m ≥ N, compile fs m pre fname = .ok (some file)) ∧ asm T order file = .ok (some (code, dbg)) ∧
      code.length ≤ 180 * phrases b + 13 + ((Link.stringsOf pre b).map (fun s => s.length + 1)).sum ∧
      (code.length ≤ 2147483647 → ∀ s0, Lang.initial b = .ok () s0 →
        ∃ vm0 vm1, VM.load E code VM.new = .ok vm0 ∧ (∃ N, ∀ m ≥ N, boot E F m vm0 = .ok vm1) ∧
          vm1.state = .ready ∧ vm1.stack = [] ∧ vm1.rest = [] ∧ vm1.frames = [] ∧ Held (Link.stringsOf pre b) s0 vm1 ∧
          ∀ n, match Lang.exec ⟨E, T.strtof, Lang.noLib⟩ n b s0 with
            | .ok _ s => ∃ vm2, (∃ N, ∀ m ≥ N, VM.run E F m vm1 = .ok vm2) ∧ vm2.state = .done ∧ vm2.stack = [] ∧ vm2.rest = [] ∧ vm2.frames = [] ∧ Held (Link.stringsOf pre b) s vm2
            | .ret _ _ => False
            | .err e => ∃ vm2, (∃ N, ∀ m ≥ N, VM.run E F m vm1 = .ok vm2) ∧ vm2.state = .error ∧ vm2.error = e
            | .odd => True
            | .time => ∀ k ≤ n, VM.run E F k vm1 = .hang) := by
  obtain ⟨N, hx⟩ := hx
  obtain ⟨file, o, cs, dbg, h1, h2, h3, _⟩ := source_ok ho hl hx hpos ht hts hs hP
  have hsize := h3.size
  rw [show (stringBytes (Link.stringsOf pre b)).length = ((Link.stringsOf pre b).map (fun s => s.length + 1)).sum by simp [stringBytes, List.length_flatMap]] at hsize
  refine ⟨file, _, dbg, h1, h2, hsize, fun hsz s0 hi => ?_⟩
  obtain ⟨vm1, N, h4, h5, h6⟩ := boots h3 hP he hsz hF hE hi
  have hn : ∀ i x, (Link.stringsOf pre b)[i]? = some x → FMap.get (ctx T pre b o cs E F).strings x = some i := numbered_at (Link.stringsOf_nodup pre b) hP.count
  obtain ⟨ρ, as, h7⟩ := id h6
  have hst : vm1.stack = [] := by
    have := h7.stack
    cases h7.reps
    exact this
  have hfr : vm1.frames = [] := by
    have := h7.sc
    rw [h5] at this
    exact this
  refine ⟨_, vm1, load_ok hP he, ⟨N, h4⟩, h7.core.ready, hst, h7.rest, hfr, ⟨ρ, holding_of_core hn h7.core⟩, fun n => ?_⟩
  have hr := runs h3 hP he hsz hF hE h5 rfl h6 n
  cases hex : Lang.exec ⟨E, T.strtof, Lang.noLib⟩ n b s0 with
  | ok vs s =>
    rw [hex] at hr
    obtain ⟨k, vm2, q, k1, k2⟩ := hr
    cases Lang.exec_stat (show Lang.isStat b = true from Lang.syn_kind hs) hex
    obtain ⟨ρ', as', k3⟩ := k1
    refine ⟨_, run_stops h7.core.ready k2 (by simp), rfl, ?_, k3.rest, ?_, ρ', ?_⟩
    · have := k3.stack
      cases k3.reps
      exact this
    · have := k3.depth
      exact List.length_eq_zero_iff.mp (this.trans rfl)
    · have k4 := holding_of_core hn k3.core
      exact { k4 with }
  | ret v s => rw [hex] at hr; exact hr
  | err e =>
    rw [hex] at hr
    obtain ⟨k, vm2, k1, k2, k3⟩ := hr
    exact ⟨vm2, run_stops h7.core.ready k1 (by rw [k2]; simp), k2, k3⟩
  | odd => trivial
  | time =>
    rw [hex] at hr
    obtain ⟨k, vm2, k1, k2, k3⟩ := hr
    intro j hj
    exact run_goes k2 k3 j (by omega)

/-- **C65**: a program is compiled, assembled and loaded, and then does what it means.  If the text of a file consists of the tokens of a
program (C64 says which tokens a text has), the compiler writes an assembly file, the assembler turns it into bytecode of bounded size, and
loading the bytecode leaves the machine with the program's functions defined and nothing else.  Executing the script then
* ends with an empty stack and the state the program ends in, if it ends;
* stops with the error the program ends in;
* does not stop within `n` steps if the program's meaning needs more than `n` rounds of a loop or nested calls. -/
theorem C65_program (fs : FS) (T : Tools) (order : List (Nat × Bytes) → List (Nat × Bytes)) (ho : ∀ l, (order l).Perm l) (pre : List Bytes) (fname path text : Bytes)
    (hf : fs fname = some (path, text)) (toks : List Tok) (fin : Bool) (hx : Lexed fs [path] path 1 0 (text ++ [10]) toks fin) (hpos : ∀ t ∈ toks, PosOk (mark t))
    (ts : List T2) (ht : (toks.filter (fun t => decide (t.type ≠ .statend))).map (fun t => (t.type, t.value)) = ts) (hts : ts ≠ [])
    (b : Ast) (hs : Syn .stats ts b) (hP : Link.Program T pre b)
    (E : Env) (F : CFuns) (he : E.endian = T.endian) (hF : FOk F) (hE : Obj.StrcmpLaw E.sc) :
    ∃ file code dbg, (∃ N, ∀ m ≥ N, compile fs m pre fname = .ok (some file)) ∧ asm T order file = .ok (some (code, dbg)) ∧
      code.length ≤ 180 * phrases b + 13 + ((Link.stringsOf pre b).map (fun s => s.length + 1)).sum ∧
      (code.length ≤ 2147483647 → ∀ s0, Lang.initial b = .ok () s0 →
        ∃ vm0 vm1, VM.load E code VM.new = .ok vm0 ∧ (∃ N, ∀ m ≥ N, boot E F m vm0 = .ok vm1) ∧
          vm1.state = .ready ∧ vm1.stack = [] ∧ vm1.rest = [] ∧ vm1.frames = [] ∧ Held (Link.stringsOf pre b) s0 vm1 ∧
          ∀ n, match Lang.exec ⟨E, T.strtof, Lang.noLib⟩ n b s0 with
            | .ok _ s => ∃ vm2, (∃ N, ∀ m ≥ N, VM.run E F m vm1 = .ok vm2) ∧ vm2.state = .done ∧ vm2.stack = [] ∧ vm2.rest = [] ∧ vm2.frames = [] ∧ Held (Link.stringsOf pre b) s vm2
            | .ret _ _ => False
            | .err e => ∃ vm2, (∃ N, ∀ m ≥ N, VM.run E F m vm1 = .ok vm2) ∧ vm2.state = .error ∧ vm2.error = e
            | .odd => True
            | .time => ∀ k ≤ n, VM.run E F k vm1 = .hang) := by
  obtain ⟨lex, h1, h2⟩ := C64_tokens fs fname path text hf toks fin hx
  exact tokens_program fs T order ho pre fname lex h1 toks h2 hpos ts ht hts b hs hP E F he hF hE


/-! ### A concrete program -/

/-- `function f(n) { if(n<2) return n`, newline, `return f(n-1)+f(n-2)}`, newline, `x=f(6)`, newline. -/
def fibParts : List Part :=
  [.word 3, .gap, .name [102], .mark 3, .name [110], .mark 4, .gap, .mark 1, .gap, .word 1, .mark 3, .name [110], .mark 13, .num [50], .mark 4, .gap, .word 4, .gap, .name [110], .nl,
   .word 4, .gap, .name [102], .mark 3, .name [110], .mark 20, .num [49], .mark 4, .mark 19, .name [102], .mark 3, .name [110], .mark 20, .num [50], .mark 4, .mark 2, .nl,
   .name [120], .mark 9, .name [102], .mark 3, .num [54], .mark 4]

def fibText : Bytes := chars "function f(n) { if(n<2) return n\nreturn f(n-1)+f(n-2)}\nx=f(6)"

def fibFs : FS := fun n => if n = [97] then some ([97], fibText) else none

/-- The body of `f`. -/
def fibBody : Ast :=
  .seq (.ifs (.bin .lt (.id [110]) (.num [50])) (.ret (.id [110])))
    (.seq (.ret (.bin .add (.call (.id [102]) (.arg .noArg (.bin .sub (.id [110]) (.num [49])))) (.call (.id [102]) (.arg .noArg (.bin .sub (.id [110]) (.num [50])))))) .skip)

def fib : Ast := .seq (.func [102] [[110]] fibBody) (.seq (.assign (.id [120]) (.call (.id [102]) (.arg .noArg (.num [54])))) .skip)

theorem syn_prod {ts : List T2} {a : Ast} (h : Syn (.opnd false) ts a) : Syn .prod ts a := .prod1 (.modu1 (.pow1 (.shift1 (.andor1 (.opnd h)))))
theorem syn_expr {ts : List T2} {a : Ast} (h : Syn (.opnd false) ts a) : Syn .expr ts a := .expr (.sum1 (syn_prod h))
theorem syn_cond {ts : List T2} {a : Ast} (h : Syn .expr ts a) : Syn .cond ts a := .cond (.logic1 (.cmp1 h))

def fibToks : List T2 :=
  [(.fun_, chars "function"), (.id, [102]), (.paropen, []), (.id, [110]), (.parclose, []), (.blockopen, []),
   (.if_, chars "if"), (.paropen, []), (.id, [110]), (.cmp, [60]), (.const, [50]), (.parclose, []), (.return_, chars "return"), (.id, [110]),
   (.return_, chars "return"), (.id, [102]), (.paropen, []), (.id, [110]), (.addsub, [45]), (.const, [49]), (.parclose, []), (.addsub, [43]),
   (.id, [102]), (.paropen, []), (.id, [110]), (.addsub, [45]), (.const, [50]), (.parclose, []), (.blockclose, []),
   (.id, [120]), (.assign, []), (.id, [102]), (.paropen, []), (.const, [54]), (.parclose, [])]

theorem fib_syn : Syn .stats fibToks fib := by
  have n : Syn (.opnd false) [(.id, [110])] (.id [110]) := .ref .id
  have sub : ∀ t, Syn .cond [(.id, [110]), (.addsub, [45]), (.const, t)] (.bin .sub (.id [110]) (.num t)) := fun t =>
    syn_cond (.expr (.sum (.sum1 (syn_prod n)) .sub (syn_prod .num)))
  have call : ∀ {us a}, Syn .cond us a → Syn .ref ([(.id, [102])] ++ (.paropen, []) :: (us ++ [(.parclose, [])])) (.call (.id [102]) (.arg .noArg a)) := fun h => .call .id (.arg1 h)
  have body := Syn.blk (v := []) (w := []) (.stats
    (.ifs (u := chars "if") (v := []) (w := []) (.cond (.logic1 (.cmp (syn_expr n) .lt (syn_expr (.num (t := [50])))))) (.sub (.simple (.ret (v := chars "return") (syn_cond (syn_expr n))))))
    (.stats (.simple (.ret (v := chars "return") (syn_cond (.expr (.sum (.sum1 (syn_prod (.ref (call (sub [49]))))) .add (syn_prod (.ref (call (sub [50]))))))))) .stats0 (by simp))
    (by simp [Lang.bare]))
  exact .stats (.func (u := chars "function") (v := []) (w := []) .one body)
    (.stats (.simple (.assign (v := []) .id (by simp) (syn_expr (.ref (call (syn_cond (syn_expr (.num (t := [54]))))))))) .stats0 (by simp)) (by simp [Lang.bare])

theorem fib_program (T : Tools) : Link.Program T [] fib where
  whole := rfl
  legal := by simp [fib, fibBody, Lang.Legal]
  once := by simp [fib, fibBody, Lang.functions, Lang.decls]
  nums := by
    have h : ∀ (t : Bytes) (v : Int), t ≠ [] → Clean t → 46 ∉ t → Lang.decimal t = some v → v.natAbs < 18446744073709551616 → Link.NumOk T t :=
      fun t v h1 h2 h3 h4 h5 => ⟨h1, h2, fun h => absurd h h3, fun _ => ⟨v, h4, h5⟩⟩
    intro t ht
    have ht : t ∈ ([[50], [49], [50], [54]] : List Bytes) := ht
    simp only [List.mem_cons, List.not_mem_nil, or_false] at ht
    rcases ht with rfl | rfl | rfl | rfl
    · exact h _ 2 (by decide) (by unfold Clean; decide) (by decide) (by decide) (by decide)
    · exact h _ 1 (by decide) (by unfold Clean; decide) (by decide) (by decide) (by decide)
    · exact h _ 2 (by decide) (by unfold Clean; decide) (by decide) (by decide) (by decide)
    · exact h _ 6 (by decide) (by unfold Clean; decide) (by decide) (by decide) (by decide)
  strs := by
    show ∀ s ∈ ([[102], [120]] : List Bytes), ∀ c ∈ s, c ≠ 0 ∧ c ≠ 10
    decide
  count := by decide
  small := by decide

theorem fib_text : parts (fibParts ++ [Part.nl]) = fibText ++ [10] := by decide +kernel

/-- A host with the usual `strcmp`. -/
def someEnv : Env := ⟨Obj.strcmpDiff, fun a _ => a, fun _ => 0, .little⟩

def someTools : Tools := ⟨.little, fun _ => none⟩

/-- The program ended with the value `v` of the variable `x`. -/
def endsWith (x : Bytes) (v : Obj) : Lang.Out (List Obj) → Bool
  | .ok [] s => decide (globalVal x s = v)
  | _ => false

theorem of_endsWith {x : Bytes} {v : Obj} {r : Lang.Out (List Obj)} (h : endsWith x v r = true) : ∃ s, r = .ok [] s ∧ globalVal x s = v := by
  cases r with
  | ok vs s => cases vs with
    | nil => exact ⟨s, rfl, of_decide_eq_true h⟩
    | cons => cases h
  | _ => cases h

/-- The state before the program: the function is known. -/
def fibStart : St := ⟨[([102], .clo 0)], [.fn [[110]] fibBody [(Lang.self, .nil)]], .top⟩

/-- What the program means: `x` is 8. -/
theorem fib_means : ∃ s, Lang.exec ⟨someEnv, someTools.strtof, Lang.noLib⟩ 10 fib fibStart = .ok [] s ∧ globalVal [120] s = .int 8 := of_endsWith (by decide +kernel)

theorem fib_starts : Lang.initial fib = .ok () fibStart := by
  unfold Lang.initial fib fibStart
  rfl

/-- The program is compiled, loaded and executed, and ends with `x` being 8. -/
example (order : List (Nat × Bytes) → List (Nat × Bytes)) (ho : ∀ l, (order l).Perm l) (F : CFuns) (hF : FOk F) :
    ∃ file code dbg vm0 vm1 vm2, (∃ N, ∀ m ≥ N, compile fibFs m [] [97] = .ok (some file)) ∧ asm someTools order file = .ok (some (code, dbg)) ∧
      VM.load someEnv code VM.new = .ok vm0 ∧ (∃ N, ∀ m ≥ N, boot someEnv F m vm0 = .ok vm1) ∧ (∃ N, ∀ m ≥ N, VM.run someEnv F m vm1 = .ok vm2) ∧
      vm2.state = .done ∧ vm2.stack = [] ∧ ∃ a, FMap.get vm2.gsyms 1 = some a ∧ Holds vm2.heap a (.atom (.int 8)) := by
  obtain ⟨file, code, dbg, h1, h2, h3, h4⟩ := C65_program fibFs someTools order ho [] [97] [97] fibText rfl (partToks [97] 1 0 (fibParts ++ [Part.nl])) true
    (fib_text ▸ parts_lexed fibFs [[97]] [97] (fibParts ++ [Part.nl]) 1 0 (by decide +kernel)) (by
      have : (∀ t ∈ partToks [97] 1 0 (fibParts ++ [Part.nl]), (mark t).line < 100 ∧ (mark t).col < 100 ∧ (mark t).fname = [97]) := by decide +kernel
      intro t ht
      obtain ⟨a1, a2, a3⟩ := this t ht
      refine ⟨by omega, by omega, ?_, ?_⟩
      · rw [a3]; decide
      · rw [a3]; rintro x ⟨⟩; decide)
    fibToks (by decide +kernel) (by decide) fib fib_syn (fib_program someTools) someEnv F rfl hF Obj.strcmpDiff_law
  obtain ⟨s, i2, i3⟩ := fib_means
  obtain ⟨vm0, vm1, h5, h6, _, _, _, _, _, h7⟩ := h4 (Nat.le_trans h3 (by decide)) fibStart fib_starts
  generalize Lang.exec ⟨someEnv, someTools.strtof, Lang.noLib⟩ = ex at h7 i2
  have := h7 10
  rw [i2] at this
  obtain ⟨vm2, h8, h9, h10, _, _, ρ, h11⟩ := this
  refine ⟨file, code, dbg, vm0, vm1, vm2, h1, h2, h5, h6, h8, h9, h10, ?_⟩
  obtain ⟨k1, k2⟩ := h11.globals 1 [120] rfl
  rw [i3] at k1 k2
  cases hg : FMap.get vm2.gsyms 1 with
  | none => cases k2 hg
  | some a =>
    obtain ⟨c, c1, c2⟩ := k1 a hg
    refine ⟨a, rfl, ?_⟩
    cases c <;> cases c2
    exact c1

end Buzz.Props
