import Verif.SlotsRun
import Verif.SlotsFuns
import Verif.Props.Phrases

/-
Local slots: property C53.  The specification is `compR` in `Verif/Slots.lean` – the compiler with a record of the number of symbols in
scope at the beginning and the end of every phrase – and the definitions below.
-/
namespace Buzz.Props

open Buzz.Msg Buzz.Lex Buzz.Debug Buzz.Asm Buzz.Parser Buzz.Comp Buzz.VM Buzz.Heap Buzz.Sim Buzz.Link
open Buzz.Lang (Ast Thing Scope Shape St T2 Syn complete Legal globalVal)

/-! ### Addresses -/

/-- The number of bytes of a line. -/
def width : Ln → Nat
  | .lab _ | .exit => 0
  | .op _ => 1
  | _ => 5

/-- The number of bytes of code. -/
def bytes (ls : List Ln) : Nat := (ls.map width).sum

theorem lnAt_width {K : Ctx} {p q : Nat} {x : Ln} (h : LnAt K p x q) : q = p + width x := by
  cases x with
  | lab k => exact h.2
  | exit => exact h
  | op i => exact h.2
  | num i v => exact h.2.2
  | txt i t => exact h.2.2
  | ref i k => exact h.2.2.2

theorem codeAt_bytes {K : Ctx} {ls : List Ln} : ∀ {p q : Nat}, CodeAt K p ls q → q = p + bytes ls := by
  induction ls with
  | nil => intro p q h; exact h
  | cons x ls ih =>
    rintro p q ⟨r, h1, h2⟩
    have := ih h2
    have := lnAt_width h1
    simp only [bytes, List.map_cons, List.sum_cons] at *
    omega

theorem bytes_append (a b : List Ln) : bytes (a ++ b) = bytes a + bytes b := by simp [bytes]

/-- Lines without bytes do not change the number of slots. -/
theorem slots_empty {l : List Rec} : ∀ {d : Nat}, bytes (rows l) = 0 → slots d l = d := by
  induction l with
  | nil => intro d _; rfl
  | cons x l ih =>
    intro d h
    cases x with
    | mark n => exact ih (d := d) h
    | ln x =>
      simp only [rows, bytes, List.map_cons, List.sum_cons] at h
      have h2 := ih (d := d) (by unfold bytes; omega)
      cases x with
      | lab k => exact h2
      | exit => exact h2
      | op i => simp [width] at h
      | num i v => simp [width] at h
      | txt i t => simp [width] at h
      | ref i k => simp [width] at h

/-- Places of the code with the same address have the same number of slots. -/
theorem slots_addr {d : Nat} {a b a' b' : List Rec} (e : a ++ b = a' ++ b') (h : bytes (rows a) = bytes (rows a')) : slots d a = slots d a' := by
  rcases List.append_eq_append_iff.mp e with ⟨m, rfl, _⟩ | ⟨m, rfl, _⟩
  · rw [rows_append, bytes_append] at h
    rw [slots_append, slots_empty (l := m) (by omega)]
  · rw [rows_append, bytes_append] at h
    rw [slots_append, slots_empty (l := m) (by omega)]

/-! ### Running a function -/

/-- A machine that has just entered the function whose body `b` the compiler `c` translates to `g`: the code lies at `l`, the machine is
there, and it has a slot for every name in scope. -/
structure AtEntry (K : Ctx) (b : Ast) (c : CS) (zs : List Bytes) (g : ROut) (l r : Nat) (vm : VM) (f : Frame) (fs : List Frame) : Prop where
  tidy : tidy b
  scope : Loc c.symstack zs c.strings
  code : bodyR (compR b .val) c = some g
  lies : CodeAt K l (rows g.code ++ [.op 5]) r
  inside : r ≤ K.code.length
  inv : VInv vm
  ready : vm.state = .ready
  bcode : vm.code = K.code
  pc : vm.pc = (l : Int)
  frames : vm.frames = f :: fs
  count : f.syms.length = zs.length
  some : 0 < zs.length
  few : zs.length ≤ 2147483647

theorem entry_active {K : Ctx} (hK : Good K) {b : Ast} {c : CS} {zs : List Bytes} {g : ROut} {l r : Nat} {vm : VM} {f : Frame} {fs : List Frame}
    (h : AtEntry K b c zs g l r vm f fs) {w : VM} (ha : Acts K.E K.F vm.rest.length vm w) (hw : w.rest.length = vm.rest.length) :
    VInv w ∧ w.state = .ready ∧ w.code = K.code ∧ Flow Non zs.length g.code ∧ ∃ f', w.frames = f' :: fs ∧ Spot K l zs.length g.code w.pc f' := by
  obtain ⟨fl, _⟩ := flow_body (compR_flows b .val Non zs.length h.tidy) rfl h.some h.scope h.code
  obtain ⟨k1, k2, k3⟩ := acts_active hK h.lies h.inside fl h.few h.inv h.ready h.bcode h.frames
    ⟨[], g.code, rfl, by rw [h.pc]; omega, by rw [h.pc]; rfl, h.count⟩ ha
  refine ⟨k1, k2, ?_⟩
  cases k3 with
  | now a1 a2 a3 a4 => exact ⟨a2, fl, _, a3, a4⟩
  | later a1 _ _ => omega

/-- **C53** While a function runs – through all of its branches, loops, blocks and calls – the machine is, whenever it is in the function itself, at some
place of the function's code; and wherever the compiler has recorded the number of symbols in scope, the function has exactly that many slots. -/
theorem C53_slots (K : Ctx) (hK : Good K) (b : Ast) (c : CS) (zs : List Bytes) (g : ROut) (l r : Nat) (vm : VM) (f : Frame) (fs : List Frame)
    (h : AtEntry K b c zs g l r vm f fs) (w : VM) (ha : Acts K.E K.F vm.rest.length vm w) (hw : w.rest.length = vm.rest.length) :
    ∃ f', w.frames = f' :: fs ∧ (∃ pre post, g.code = pre ++ post ∧ w.pc = ((l + bytes (rows pre) : Nat) : Int)) ∧
      ∀ pre n post, g.code = pre ++ .mark n :: post → w.pc = ((l + bytes (rows pre) : Nat) : Int) → f'.syms.length = n := by
  obtain ⟨_, _, _, fl, f', hf, pre, post, e, h0, h1, h2⟩ := entry_active hK h ha hw
  have hp := codeAt_bytes h1
  refine ⟨f', hf, ⟨pre, post, e, by omega⟩, fun pre' n post' e' hpc => ?_⟩
  have hs := fl pre' (.mark n) post' e'
  have hs : n = _ := hs
  rw [h2, hs]
  exact slots_addr (e.symm.trans e') (by omega)

/-- **C53** Instructions for local variables stay within the slots: one is read if it exists, written if it exists or is the next one, and at least one
remains when some are removed. -/
theorem C53_in_range (K : Ctx) (hK : Good K) (b : Ast) (c : CS) (zs : List Bytes) (g : ROut) (l r : Nat) (vm : VM) (f : Frame) (fs : List Frame)
    (h : AtEntry K b c zs g l r vm f fs) (w : VM) (ha : Acts K.E K.F vm.rest.length vm w) (hw : w.rest.length = vm.rest.length) :
    ∃ f', w.frames = f' :: fs ∧
      (Fetched w .lload → ∃ i, rd32 K.E.endian w.code (w.pc.toNat + 1) = .ok i ∧ i < f'.syms.length) ∧
      (Fetched w .lstore → ∃ i, rd32 K.E.endian w.code (w.pc.toNat + 1) = .ok i ∧ i ≤ f'.syms.length) ∧
      (Fetched w .lremove → ∃ i, rd32 K.E.endian w.code (w.pc.toNat + 1) = .ok i ∧ i < f'.syms.length) := by
  obtain ⟨_, _, hcode, fl, f', hf, pre, post, e, h0, h1, h2⟩ := entry_active hK h ha hw
  refine ⟨f', hf, ?_⟩
  obtain ⟨pre', x, q, g1, g2, g3, g4⟩ := next_line h.lies fl post pre _ e h1
  -- the opcode is that of the line
  have opc : ∀ {n : Nat} {op : Op}, rd K.code w.pc.toNat = .ok n → Fetched w op → opcodes[n]? = some op := by
    rintro n op hn ⟨m, hm, ho⟩
    rw [hcode, hn] at hm
    cases hm
    exact ho
  have small : ∀ {n : Nat} {op : Op}, n < 35 → opcodes[n]? = some op → hasArg op = false := fun h1 h2 => op_plain _ h1 _ h2
  have hb : slots zs.length pre ≤ 4294967294 := by
    have := slots_le (d := zs.length) h1
    have := h.few
    have := hK.size
    have : w.pc.toNat ≤ r := by
      obtain ⟨r1, k1, k2⟩ := codeAt_append.mp h.lies
      rw [e, rows_append] at k1
      obtain ⟨r2, k3, k4⟩ := codeAt_append.mp k1
      obtain rfl := k3.unique h1
      exact k4.le.trans k2.le
    have := h.inside
    omega
  -- what the line says
  have key : ∀ op, op ∈ [Op.lload, .lstore, .lremove] → Fetched w op → ∃ v : Int, 0 ≤ v ∧ v < 4294967296 ∧ rd32 K.E.endian w.code (w.pc.toNat + 1) = .ok v.toNat ∧
      (op = .lload → v < f'.syms.length) ∧ (op = .lstore → v ≤ f'.syms.length) ∧ (op = .lremove → v < f'.syms.length) := by
    intro op hop hfe
    have harg : hasArg op = true := by
      simp only [List.mem_cons, List.not_mem_nil, or_false] at hop
      rcases hop with rfl | rfl | rfl <;> rfl
    rcases g4 with ⟨post', e', _, hlt, hs⟩ | ⟨_, rfl⟩
    · cases x with
      | lab k => have := g3.2; omega
      | exit => exact hs.elim
      | op j =>
        have := small hs.1 (opc g3.1 hfe)
        rw [harg] at this
        cases this
      | txt j t =>
        have hj : j ∈ [35, 36] := hs
        have := opc g3.1 hfe
        simp only [List.mem_cons, List.not_mem_nil, or_false] at hj hop
        rcases hj with rfl | rfl <;> cases this <;> simp at hop
      | ref j k =>
        have := opc g3.1 hfe
        have hj : j = 40 ∨ (j ∈ [44, 45, 46] ∧ _) := hs
        simp only [List.mem_cons, List.not_mem_nil, or_false] at hj hop
        rcases hj with rfl | ⟨rfl | rfl | rfl, _⟩ <;> cases this <;> simp at hop
      | num j v =>
        have ho := opc g3.1 hfe
        obtain ⟨s1, s2, s3, s4⟩ := hs
        rw [← h2] at s1 s2 s3 hb
        have harg2 : ∀ v' : Int, 0 ≤ v' → v' < 4294967296 → v' = v → rd32 K.E.endian w.code (w.pc.toNat + 1) = .ok v'.toNat := by
          rintro v' a1 a2 rfl
          rw [hcode, g3.2.1.2, Int.emod_eq_of_lt a1 a2]
        simp only [List.mem_cons, List.not_mem_nil, or_false] at s4
        rcases s4 with rfl | rfl | rfl | rfl | rfl
        · cases ho; simp at hop
        · cases ho; simp at hop
        · cases ho
          obtain ⟨a1, a2⟩ := s1 rfl
          exact ⟨v, a1, by omega, harg2 v a1 (by omega) rfl, fun _ => a2, by simp, by simp⟩
        · cases ho
          obtain ⟨a1, a2⟩ := s2 rfl
          exact ⟨v, a1, by omega, harg2 v a1 (by omega) rfl, by simp, fun _ => a2, by simp⟩
        · cases ho
          obtain ⟨a1, a2⟩ := s3 rfl
          exact ⟨v, a1, by omega, harg2 v a1 (by omega) rfl, by simp, by simp, fun _ => a2⟩
    · have := small (by decide) (opc g3.1 hfe)
      rw [harg] at this
      cases this
  refine ⟨fun hfe => ?_, fun hfe => ?_, fun hfe => ?_⟩
  · obtain ⟨v, a1, _, a2, a3, _, _⟩ := key _ (by simp) hfe
    have := a3 rfl
    exact ⟨_, a2, by omega⟩
  · obtain ⟨v, a1, _, a2, _, a3, _⟩ := key _ (by simp) hfe
    have := a3 rfl
    exact ⟨_, a2, by omega⟩
  · obtain ⟨v, a1, _, a2, _, _, a3⟩ := key _ (by simp) hfe
    have := a3 rfl
    exact ⟨_, a2, by omega⟩

/-! ### Functions of a program -/

/-- The names a function has from where it is written: those of the function around it, or `self`. -/
def captured : Shape → List Bytes
  | .top => [Lang.self]
  | .inner xs => xs
  | .fn xs => xs

theorem params_fresh (sh : Shape) (ps : List Bytes) (h : (captured sh ++ ps).Nodup) : sh.params ps = captured sh ++ ps := by
  have key : ∀ (ps xs : List Bytes), (xs ++ ps).Nodup → ps.foldl (fun xs p => if p ∈ xs then xs else xs ++ [p]) xs = xs ++ ps := by
    intro ps
    induction ps with
    | nil => intro xs _; simp
    | cons p ps ih =>
      intro xs h
      have hp : p ∉ xs := by
        intro hm
        rw [List.nodup_append] at h
        exact h.2.2 p hm p List.mem_cons_self rfl
      rw [List.foldl_cons, if_neg hp, ih _ (by simpa using h)]
      simp
  have e : sh.params ps = ps.foldl (fun xs p => if p ∈ xs then xs else xs ++ [p]) (captured sh) := by cases sh <;> rfl
  rw [e]
  exact key ps _ h

theorem loc_entry {c : CS} {sh : Shape} (h : Tabs c sh) (ps : List Bytes) :
    Loc (ps.foldl addParam (scope c)).symstack (sh.params ps) (ps.foldl addParam (scope c)).strings := by
  cases sh with
  | top => exact loc_params' ps (loc_scope_top h)
  | inner xs => exact loc_params' ps (loc_scope h)
  | fn xs => exact loc_params' ps (loc_scope h)

/-- **C53** All functions of a program, from its text to its bytecode: the code of each is that of its body, compiled where the names in scope are those
of the function around it (`captured sh`) and the parameters, and lies in the bytecode at the function's label.  Whenever a machine with this bytecode
enters it with as many slots, what `C53_slots` and `C53_in_range` say follows. -/
theorem C53_program (fs : FS) (T : Tools) (order : List (Nat × Bytes) → List (Nat × Bytes)) (ho : ∀ l, (order l).Perm l) (pre : List Bytes) (fname path text : Bytes)
    (hf : fs fname = some (path, text)) (toks : List Tok) (fin : Bool) (hx : Lexed fs [path] path 1 0 (text ++ [10]) toks fin) (hpos : ∀ t ∈ toks, PosOk (mark t))
    (ts : List T2) (ht : (toks.filter (fun t => decide (t.type ≠ .statend))).map (fun t => (t.type, t.value)) = ts) (hts : ts ≠ [])
    (b : Ast) (hs : Syn .stats ts b) (hP : Link.Program T pre b) (hb : tidy b)
    (E : Env) (F : CFuns) (he : E.endian = T.endian) (hF : FOk F) (hE : Obj.StrcmpLaw E.sc) :
    ∃ file dbg o, ∃ K : Ctx, (∃ N, ∀ m ≥ N, compile fs m pre fname = .ok (some file)) ∧ asm T order file = .ok (some (K.code, dbg)) ∧ K.E = E ∧ K.F = F ∧
      comp b .val (start pre) = some o ∧
      (K.code.length ≤ 2147483647 → Good K ∧ ∀ e ∈ o.news, ∃ c sh ps b' g r, Tabs c sh ∧ e.code = rows g.code ++ [.op 5] ∧
        ∀ vm f fs, VInv vm → vm.state = .ready → vm.code = K.code → vm.pc = (K.pos e.label : Int) → vm.frames = f :: fs → f.syms.length = (sh.params ps).length →
          0 < f.syms.length → f.syms.length ≤ 2147483647 → AtEntry K b' (ps.foldl addParam (scope c)) (sh.params ps) g (K.pos e.label) r vm f fs) := by
  obtain ⟨lex, hl, N, hx⟩ := C64_tokens fs fname path text hf toks fin hx
  obtain ⟨file, o, cs, dbg, h1, h2, h3, _⟩ := source_ok ho hl hx hpos ht hts hs hP
  refine ⟨file, dbg, o, ctx T pre b o cs E F, h1, h2, rfl, rfl, h3.comp, fun hsz => ⟨good hP hsz hF hE, fun e hn => ?_⟩⟩
  have hpl : Placed (ctx T pre b o cs E F) (chunksOf o) := by
    rw [← h3.chunks]
    exact (h3.linked he hsz).placed hP.nums h3.code
  obtain ⟨c, sh, ps, b', g, k1, k2, k3, k4⟩ := (comp_funs b .val hb).2 (start pre) o .top (tabs_start pre) h3.comp e hn
  obtain ⟨r, k5, k6⟩ := hpl e (List.mem_cons_of_mem _ hn)
  refine ⟨c, sh, ps, b', g, r, k1, k4, fun vm f fs i a1 a2 a3 a4 a5 a6 a7 => ?_⟩
  exact ⟨k2, loc_entry k1 ps, k3, by rw [← k4]; exact k5, k6, i, a1, a2, a3, a4, a5, by omega, by omega⟩

/-- **C53** A function made by a running function captures exactly its slots … -/
theorem C53_capture {E : Env} {F : CFuns} {vm : VM} {f : Frame} {fs : List Frame} {a : Nat} (w : At1 vm .pushl) (ha : Arg E vm a) (hf : vm.frames = f :: fs) :
    ∃ vm', step E F vm = .ok vm' ∧ vm'.frames = f :: fs ∧ vm'.pc = vm.pc + 5 ∧ At vm' 0 (.clo true (intOfU32 a) f.syms) := by
  obtain ⟨h', sm', e, j, k, _⟩ := step_exec (E := E) (F := F) w
  rw [e]
  have e2 : exec E F { vm with heap := h', strings := sm' } .pushl =
      .ok (pushL { vm with heap := h', strings := sm', pc := vm.pc + 5 } (intOfU32 a)) :=
    incArg (v := { vm with heap := h', strings := sm' }) w.pc ha
  rw [e2]
  refine ⟨_, rfl, ?_⟩
  unfold pushL
  show VM.frames (match vm.frames with | f :: _ => _ | [] => _) = _ ∧ VM.pc (match vm.frames with | f :: _ => _ | [] => _) = _ ∧ At (match vm.frames with | f :: _ => _ | [] => _) _ _
  rw [hf]
  exact ⟨rfl, rfl, _, rfl, holds_new j.heap _⟩

/-- … and when it is called with as many arguments as it has parameters, it has a slot for each name in its scope, if the parameters' names are new. -/
theorem C53_enter {K : Ctx} {vm : VM} {sw : Bool} {l : List Nat} {e : EC} {c : CS} {sh : Shape} {ps : List Bytes} {b : Ast} {g : ROut} {r : Nat}
    (w : At1 vm (if sw then .calls else .callc)) (hcode : vm.code = K.code) (hp : vm.pc + 1 < vm.code.length) (hn : Val vm 0 (.int ps.length))
    (hc : At vm (ps.length + 1) (.clo true (K.pos e.label) l)) (ht : Tabs c sh) (hl : l.length = (captured sh).length) (hf : (captured sh ++ ps).Nodup)
    (h0 : 0 < l.length) (hm : l.length + ps.length < 2147483647)
    (hb : tidy b) (hg : bodyR (compR b .val) (ps.foldl addParam (scope c)) = some g) (hlies : CodeAt K (K.pos e.label) (rows g.code ++ [.op 5]) r) (hr : r ≤ K.code.length) :
    ∃ vm' f, step K.E K.F vm = .ok vm' ∧ vm'.rest.length = vm.rest.length + 1 ∧ AtEntry K b (ps.foldl addParam (scope c)) (captured sh ++ ps) g (K.pos e.label) r vm' f vm.frames := by
  obtain ⟨vm', h1, h2, h3, h4⟩ := C35_call (E := K.E) (F := K.F) w hp hn (by omega) hc
  obtain ⟨f, f1, f2, _⟩ := h2.frames
  obtain ⟨p, r1, _⟩ := h2.rest
  have hlt : K.pos e.label < K.code.length := by
    obtain ⟨q, k1, k2⟩ := codeAt_append.mp hlies
    have := k1.le
    have := (codeAt_one.mp k2).2
    omega
  have hz := params_fresh sh ps hf
  refine ⟨vm', f, h1, by rw [r1]; rfl, hb, ?_, hg, hlies, hr, h2.inv, ?_, h2.code.trans hcode, h3, f1, ?_, ?_, ?_⟩
  · rw [← hz]; exact loc_entry ht ps
  · rcases h4 with h4 | h4
    · exact h4.2.2
    · exact absurd ⟨by omega, by rw [h2.code, hcode]; omega⟩ h4.1
  · rw [f2, List.length_append, hl]
  · rw [List.length_append]; omega
  · rw [List.length_append]; omega

/-! ### Names -/

/-- The variables `env` of the running function and the compiler's tables: there are as many symbols in scope as slots, and the symbol of each variable
is the slot that holds its value. -/
structure SameSlots (K : Ctx) (ρ : List Nat) (c : CS) (env : List (Bytes × Obj)) (vm : VM) : Prop where
  ex : ∃ f fs, vm.frames = f :: fs ∧ f.syms.length = c.top.length ∧ env.length = c.top.length ∧ (env.map (·.1)).Nodup ∧
    ∀ (i : Nat) (x : Bytes) (v : Obj), env[i]? = some (x, v) → comp (.id x) .val c = some ⟨[.num 41 i], [], c⟩ ∧ storeOp (.id x) c = [.num 42 i] ∧
      ∃ a, f.syms[i]? = some a ∧ Rep ρ vm.heap v a

theorem same_slots {K : Ctx} {ρ : List Nat} {s : St} {vm : VM} {l : Nat} (hs : Stands K ρ s vm l) {c : CS} (ht : Tabs c s.scope.shape) {env : List (Bytes × Obj)}
    (he : s.scope = .fn env) : SameSlots K ρ c env vm := by
  have h := hs.scope
  rw [he] at h ht
  obtain ⟨_, ⟨f, fs, hf, hr⟩, _⟩ := h
  have ht : Loc c.symstack (env.map (·.1)) c.strings := ht
  have htop : c.top.length = env.length := by rw [Loc.top ht, table_length, List.length_map]
  refine ⟨f, fs, hf, by rw [htop, hr.length_eq], htop.symm, ht.nodup, fun i x v hi => ?_⟩
  have hx : (env.map (·.1))[i]? = some x := by rw [List.getElem?_map, hi]; rfl
  have hk : known x c = c := by
    unfold known
    rw [if_neg (by rw [ht.lookup_in hx]; simp)]
  have hsym : symOf x c = ⟨i, false, 0⟩ := by
    unfold symOf
    rw [hk, ht.lookup_in hx]
    rfl
  have hlt : i < env.length := (List.getElem?_eq_some_iff.mp hi).1
  refine ⟨?_, ?_, f.syms[i]'(by rw [← hr.length_eq]; exact hlt), List.getElem?_eq_getElem _, ?_⟩
  · simp only [comp, hsym, hk]
    rfl
  · simp only [storeOp, hsym]
    rfl
  · have := List.forall₂_iff_get.mp hr
    have := this.2 i hlt (by rw [← hr.length_eq]; exact hlt)
    simp only [List.get_eq_getElem] at this
    have hg : env[i] = (x, v) := (List.getElem?_eq_some_iff.mp hi).2
    rw [hg] at this
    exact this

/-- **C53** for names: when a list of statements in a function – with conditionals, loops, blocks and calls – has been executed, the compiler's tables behind
the statements and the machine's slots agree again: there are as many symbols as slots, and the symbol of each variable is the slot that holds the value
the variable has according to the meaning of the statements. -/
theorem C53_names (ts : List T2) (a : Ast) (h : Syn .stats ts a) (p : P) (rest : List T2) (hv : View p (ts ++ rest)) (hn : Ends a rest) (xs : List Bytes) (ht : Tabs (cs p) (.fn xs))
    (hl : Legal (.fn xs) a) :
    ∃ r p', (∃ N, ∀ m ≥ N, parse m .statRest p = .ok (some (r, p'))) ∧
      ∀ K : Ctx, Fine K → ∀ l r, Lies K p p' l r → ∀ ρ s vm, s.scope.shape = .fn xs → Stands K ρ s vm l → ∀ n vs s', Lang.exec K.host n a s = .ok vs s' →
        ∃ ρ' vm' env', Gets K vm vm' ∧ vm'.pc = (r : Int) ∧ s'.scope = .fn env' ∧ env'.map (·.1) = xs ++ Lang.decls a ∧ SameSlots K ρ' (cs p') env' vm' := by
  obtain ⟨r, p', h1, _, h3, h4⟩ := C43_statements ts a h p rest hv hn (.fn xs) ht hl
  refine ⟨r, p', h1, fun K g l r hlies ρ s vm hsh hs n vs s' hx => ?_⟩
  have := h4 K g l r hlies ρ s vm hsh hs n
  unfold Executes at this
  rw [hx] at this
  obtain ⟨ρ', vm', k1, k2, _, _, k5⟩ := this
  cases hsc : s'.scope with
  | top => rw [hsc] at k5; cases k5
  | inner => rw [hsc] at k5; cases k5
  | fn env' =>
    rw [hsc] at k5
    refine ⟨ρ', vm', env', k1, k2.pc, rfl, ?_, same_slots k2 (by rw [hsc, k5]; exact h3) hsc⟩
    injection k5

/-! ### An example -/

/-- `if(a) { var x = 1  a = x } return a` -/
def slotBody : Ast := .seq (.ifs (.id [97]) (.block (.seq (.init [120] (.num [49])) (.seq (.assign (.id [97]) (.id [120])) .skip)))) (.seq (.ret (.id [97])) .skip)

/-- The compiler in a function with the parameter `a`. -/
def slotStart : CS := ⟨1, [table [Lang.self, [97]], []], []⟩

/-- The bytecode of the function. -/
def slotCode : Bytes := [41, 1, 0, 0, 0, 45, 41, 0, 0, 0, 2, 42, 2, 0, 0, 0, 36, 1, 0, 0, 0, 42, 2, 0, 0, 0, 41, 2, 0, 0, 0, 42, 1, 0, 0, 0, 43, 1, 0, 0, 0, 41, 1, 0, 0, 0, 6, 5]

def slotCtx : Ctx := ⟨host, retNil, fun _ => none, slotCode, fun _ => 41, [], Lang.noLib, 0, false, 0⟩

/-- A machine with two values as symbols of the running function; the second one is `v`. -/
def slotVm (code : Bytes) (v : Int) : VM :=
  { pushInt (pushInt (pushInt VM.new 0) 3) v with code := code, state := .ready, pc := 0, stack := [], rest := [[0]], frames := [⟨[1, 2], false⟩] }

theorem slotVm_inv {code : Bytes} (hc : code.length ≤ 2147483647) {v : Int} (hv : I32 v) : VInv (slotVm code v) := by
  have i : VInv (pushInt (pushInt (pushInt VM.new 0) 3) v) := ((VM.new_inv.push (c := .atom (.int 0)) (by show I32 0; unfold I32; omega)).push (c := .atom (.int 3)) (by show I32 3; unfold I32; omega)).push (c := .atom (.int v)) hv
  have hs : (pushInt (pushInt (pushInt VM.new 0) 3) v).stack = [2, 1, 0] := rfl
  have hl : ∀ a ∈ [2, 1, 0], Live (pushInt (pushInt (pushInt VM.new 0) 3) v).heap a := by rw [← hs]; exact i.stack
  exact { i with
    stack := by intro a ha; cases ha
    rest := by
      intro s hs a ha
      cases List.mem_singleton.mp hs
      cases List.mem_singleton.mp ha
      exact hl 0 (by simp)
    frames := by
      intro f hf a ha
      cases List.mem_singleton.mp hf
      simp only [List.mem_cons, List.not_mem_nil, or_false] at ha
      rcases ha with rfl | rfl
      · exact hl 1 (by simp)
      · exact hl 2 (by simp)
    depth := fun _ => rfl
    size := hc
    pcr := by show I32 0; unfold I32; omega }

theorem slot_good : Good slotCtx := ⟨(by show 48 ≤ 2147483647; decide), retNil_ok.1, Obj.strcmpDiff_law, (by intro x i h; cases h), (by intro x i h; cases h), noLib_ok rfl⟩

/-- The lines of the function. -/
def slotLines : List Ln := [.num 41 1, .ref 45 1, .op 2, .num 42 2, .txt 36 [49], .num 42 2, .num 41 2, .num 42 1, .num 43 1, .lab 1, .num 41 1, .op 6]

theorem slot_comp : ∃ g, bodyR (compR slotBody .val) slotStart = some g ∧ rows g.code = slotLines := by
  have h : (bodyR (compR slotBody .val) slotStart).map (fun g => rows g.code) = some slotLines := by decide +kernel
  cases hg : bodyR (compR slotBody .val) slotStart with
  | none => rw [hg] at h; cases h
  | some g => rw [hg] at h; exact ⟨g, rfl, Option.some.inj h⟩

theorem slot_lies : CodeAt slotCtx 0 (slotLines ++ [.op 5]) 48 := by
  have w0 : ∀ {v : Int} {w : Nat} {t : Bytes}, Lang.decimal t = some v → w = (v % 4294967296).toNat →
      (36 = 35 → ∀ w', slotCtx.strtof t = some w' → w' = w) ∧ (36 = 36 → ∀ v, Lang.decimal t = some v → w = (v % 4294967296).toNat) := by
    intro v w t h1 h2
    refine ⟨fun h => (by cases h), fun _ v' h => ?_⟩
    rw [h1] at h
    cases h
    exact h2
  refine ⟨5, ⟨rfl, ⟨by decide, rfl⟩, rfl⟩, 10, ⟨rfl, ⟨by decide, rfl⟩, by decide, rfl⟩, 11, ⟨rfl, rfl⟩, 16, ⟨rfl, ⟨by decide, rfl⟩, rfl⟩, ?_⟩
  refine ⟨21, ⟨rfl, ⟨1, ⟨by decide, rfl⟩, w0 (v := 1) (by decide) (by decide)⟩, rfl⟩, 26, ⟨rfl, ⟨by decide, rfl⟩, rfl⟩, 31, ⟨rfl, ⟨by decide, rfl⟩, rfl⟩, ?_⟩
  exact ⟨36, ⟨rfl, ⟨by decide, rfl⟩, rfl⟩, 41, ⟨rfl, ⟨by decide, rfl⟩, rfl⟩, 41, ⟨rfl, rfl⟩, 46, ⟨rfl, ⟨by decide, rfl⟩, rfl⟩, 47, ⟨rfl, rfl⟩, 48, ⟨rfl, rfl⟩, rfl⟩

/-- The hypotheses of `C53_slots` hold for this function, called with any number. -/
example (v : Int) (hv : I32 v) : ∃ g, AtEntry slotCtx slotBody slotStart [Lang.self, [97]] g 0 48 (slotVm slotCode v) ⟨[1, 2], false⟩ [] := by
  obtain ⟨g, h1, h2⟩ := slot_comp
  exact ⟨g, by simp [slotBody, tidy, Lang.decls], ⟨⟨[], [], rfl, by simp, by simp [BaseOk]⟩, by decide⟩, h1, by rw [h2]; exact slot_lies, by show 48 ≤ 48; omega, slotVm_inv (by show 48 ≤ 2147483647; decide) hv, rfl, rfl, rfl, rfl, rfl, by decide, by decide⟩

/-- With `a` = 5 the machine has three slots inside the block and two behind it. -/
example : ((stepN host retNil 6 (slotVm slotCode 5)) >>= fun w => Res.ok (w.pc, (w.frames.map fun f => f.syms.length))) = .ok (26, [3]) ∧
    ((stepN host retNil 9 (slotVm slotCode 5)) >>= fun w => Res.ok (w.pc, (w.frames.map fun f => f.syms.length))) = .ok (41, [2]) ∧
    ((stepN host retNil 2 (slotVm slotCode 0)) >>= fun w => Res.ok (w.pc, (w.frames.map fun f => f.syms.length))) = .ok (41, [2]) := by
  decide +kernel

/-! ### Where the property fails -/

/-- The statement without the hypothesis `tidy` is wrong: `if(a) var x = 1  var y = 2` declares `x` only if `a` is true, but the compiler counts it
anyway.  Its code is the following … -/
def untidyBody : Ast := .seq (.ifs (.id [97]) (.init [120] (.num [49]))) (.seq (.init [121] (.num [50])) .skip)

theorem C53_conditional_declaration : ¬ tidy untidyBody ∧ (bodyR (compR untidyBody .val) slotStart).map (fun g => rows g.code) =
    some [.num 41 1, .ref 45 1, .op 2, .num 42 2, .txt 36 [49], .num 42 2, .lab 1, .op 2, .num 42 3, .txt 36 [50], .num 42 3, .num 43 2] :=
  ⟨by simp [untidyBody, tidy, Lang.decls], by decide +kernel⟩

/-- Undefined behaviour. -/
def isUb {α : Type} : Res α → Bool
  | .ub => true
  | _ => false

/-- … and if `a` is 0, the machine writes a slot beyond the end: `buzzdarray_set` (buzzdarray.c:185-199, with `buzzdarray_makeslot`, 90-120) leaves a hole of uninitialised pointers. -/
theorem C53_conditional_declaration_ub : isUb (stepN host retNil 4 (slotVm ([41, 1, 0, 0, 0, 45, 26, 0, 0, 0, 2, 42, 2, 0, 0, 0, 36, 1, 0, 0, 0, 42, 2, 0, 0, 0,
    2, 42, 3, 0, 0, 0, 36, 2, 0, 0, 0, 42, 3, 0, 0, 0, 43, 2, 0, 0, 0, 5]) 0)) = true := by
  decide +kernel

/-- A parameter with the name of a variable of the function around it gets no slot of its own in the compiler's tables, although the machine makes one
for the argument: the name means the captured variable. -/
theorem C53_shadowing_parameter (c : CS) (x : Bytes) (hl : Loc c.symstack [Lang.self, x] c.strings) :
    ∃ o, comp (.lam [x] (.ret (.id x))) .val c = some o ∧ o.code = [.ref 40 c.labels] ∧ o.news = [⟨c.labels, [.num 41 1, .op 6, .op 5], none⟩] := by
  have h1 : Loc ([x].foldl addParam (scope { c with labels := c.labels + 1 })).symstack [Lang.self, x] ([x].foldl addParam (scope { c with labels := c.labels + 1 })).strings := by
    have := loc_entry (c := { c with labels := c.labels + 1 }) (sh := .fn [Lang.self, x]) hl [x]
    simpa [Lang.Shape.params] using this
  have h2 := h1.lookup_in (i := 1) (x := x) rfl
  have hk : known x ([x].foldl addParam (scope { c with labels := c.labels + 1 })) = [x].foldl addParam (scope { c with labels := c.labels + 1 }) := by
    unfold known
    rw [if_neg (by rw [h2]; simp)]
  have hsym : symOf x ([x].foldl addParam (scope { c with labels := c.labels + 1 })) = ⟨1, false, 0⟩ := by
    unfold symOf
    rw [hk, h2]
    rfl
  have hb : comp (.ret (.id x)) .val ([x].foldl addParam (scope { c with labels := c.labels + 1 })) =
      some ⟨[.num 41 1, .op 6], [], [x].foldl addParam (scope { c with labels := c.labels + 1 })⟩ := by
    simp only [comp, seqO, hsym, hk, Comp.put]
    rfl
  have hbody : bodyC (comp (.ret (.id x)) .val) ([x].foldl addParam (scope { c with labels := c.labels + 1 })) =
      some ⟨[.num 41 1, .op 6], [], { [x].foldl addParam (scope { c with labels := c.labels + 1 }) with symstack := ([x].foldl addParam (scope { c with labels := c.labels + 1 })).symstack.tail }⟩ := by
    unfold bodyC
    rw [hb]
    simp
  have hc : comp (.lam [x] (.ret (.id x))) .val c = (Comp.put [.ref 40 c.labels] ⊹ chunkC none (fun cs => [x].foldl addParam (scope cs)) (comp (.ret (.id x)) .val)) c := rfl
  rw [hc]
  unfold seqO Comp.put chunkC
  simp only
  rw [hbody]
  exact ⟨_, rfl, rfl, rfl⟩

/-- So `function f(x) { return function(x) { return x } }` makes `f(7)(5)` 7 instead of 5. -/
example : result [0, 0, 2, 2, 38, 40, 0, 0, 0, 36, 7, 0, 0, 0, 36, 1, 0, 0, 0, 33, 36, 5, 0, 0, 0, 36, 1, 0, 0, 0, 33, 1, 0, 0, 0, 0, 0, 0, 0, 0,
    40, 47, 0, 0, 0, 6, 5, 41, 1, 0, 0, 0, 6, 5] = .ok (some (.int 7), .none) := by
  decide +kernel

end Buzz.Props
