import Verif.Props.Phrases

/-
The strings of compiled programs: property C41.
-/
namespace Buzz.Props

open Buzz.Msg Buzz.Lex Buzz.Debug Buzz.Asm Buzz.Parser Buzz.Comp Buzz.VM Buzz.Heap Buzz.Sim Buzz.Link
open Buzz.Lang (Ast Thing Scope Shape St T2 Syn complete Legal globalVal mentions)

/-! ## C41 -/

/-- `xs` are the different strings of `ss`, in the order of their first occurrences. -/
structure InOrder (ss xs : List Bytes) : Prop where
  once : xs.Nodup
  same : ∀ s, s ∈ xs ↔ s ∈ ss
  order : ∀ (i j : Nat) (x y : Bytes), xs[i]? = some x → xs[j]? = some y → i < j → ss.idxOf x < ss.idxOf y

/-- Only one list is so. -/
theorem InOrder.unique {ss xs ys : List Bytes} (h : InOrder ss xs) (k : InOrder ss ys) : xs = ys := by
  have pw : ∀ {zs}, InOrder ss zs → zs.Pairwise (fun x y => ss.idxOf x < ss.idxOf y) := by
    intro zs h
    rw [List.pairwise_iff_getElem]
    intro i j hi hj hij
    exact h.order i j _ _ (List.getElem?_eq_getElem hi) (List.getElem?_eq_getElem hj) hij
  refine List.Perm.eq_of_pairwise (le := fun x y => ss.idxOf x < ss.idxOf y) ?_ (pw h) (pw k) ((List.perm_ext_iff_of_nodup h.once k.once).mpr fun s => (h.same s).trans (k.same s).symm)
  intro a b _ _ h1 h2
  omega

/-- The string literals of a program. -/
def literals : Ast → List Bytes
  | .str s => [s]
  | .bin _ a b => literals a ++ literals b
  | .un _ a => literals a
  | .lam _ b => literals b
  | .tset t _ e => literals t ++ literals e
  | .field r _ => literals r
  | .index r e => literals r ++ literals e
  | .call f as => literals f ++ literals as
  | .arg as a => literals as ++ literals a
  | .init _ e => literals e
  | .assign r e => literals r ++ literals e
  | .run r => literals r
  | .func _ _ b => literals b
  | .ifs c a => literals c ++ literals a
  | .ite c a b => literals c ++ literals a ++ literals b
  | .while_ c a => literals c ++ literals a
  | .for_ i c u a => literals i ++ literals c ++ literals u ++ literals a
  | .ret e => literals e
  | .block b => literals b
  | .seq s l => literals s ++ literals l
  | _ => []

/-- A protected string of the machine. -/
def Fixed (vm : VM) (i : Nat) (s : Bytes) : Prop := FMap.get vm.strings.id2str i = some (s, true)

/-- The C functions leave protected strings alone; they can only register strings, which does so (`C06_register`, `C07_protected_survives`). -/
def FFixed (F : CFuns) : Prop := ∀ n vm vm' i s, Strman.Inv vm.strings → F n vm = .ok vm' → Fixed vm i s → Fixed vm' i s

/-! ### Lemmas -/

theorem literals_mentioned (s : Bytes) : ∀ (a : Ast) (sh : Shape), s ∈ literals a → s ∈ mentions sh a := by
  intro a
  induction a with
  | str x => intro sh h; exact h
  | init x e ih => intro sh h; cases sh <;> simp only [mentions] <;> first | exact List.mem_cons_of_mem _ (ih _ h) | exact ih _ h
  | decl x => intro sh h; cases h
  | _ => intro sh h <;> simp_all [literals, mentions] <;> grind

theorem firsts_inOrder (ss : List Bytes) : InOrder ss (firsts ss) := by
  refine ⟨firsts_nodup ss, fun s => by unfold firsts; rw [mem_firsts]; simp, ?_⟩
  suffices H : ∀ (ss : List Bytes), ∀ (i j : Nat) (x y : Bytes), (firsts ss)[i]? = some x → (firsts ss)[j]? = some y → i < j → ss.idxOf x < ss.idxOf y from H ss
  intro ss
  induction ss using List.reverseRecOn with
  | nil => intro i j x y h; simp [firsts] at h
  | append_singleton ss s ih =>
    intro i j x y h1 h2 hij
    have hm : ∀ z, z ∈ firsts ss ↔ z ∈ ss := fun z => by unfold firsts; rw [mem_firsts]; simp
    have e : firsts (ss ++ [s]) = if s ∈ firsts ss then firsts ss else firsts ss ++ [s] := by unfold firsts; rw [List.foldl_append]; rfl
    have old : ∀ z, z ∈ ss → (ss ++ [s]).idxOf z = ss.idxOf z := fun z hz => List.idxOf_append_of_mem hz
    by_cases hs : s ∈ firsts ss
    · rw [e, if_pos hs] at h1 h2
      rw [old x ((hm x).mp (List.mem_of_getElem? h1)), old y ((hm y).mp (List.mem_of_getElem? h2))]
      exact ih i j x y h1 h2 hij
    · rw [e, if_neg hs] at h1 h2
      have hj := (List.getElem?_eq_some_iff.mp h2).1
      rw [List.length_append, List.length_singleton] at hj
      rw [List.getElem?_append_left (by omega)] at h1
      have hx := (hm x).mp (List.mem_of_getElem? h1)
      by_cases hl : j < (firsts ss).length
      · rw [List.getElem?_append_left hl] at h2
        rw [old x hx, old y ((hm y).mp (List.mem_of_getElem? h2))]
        exact ih i j x y h1 h2 hij
      · obtain rfl : j = (firsts ss).length := by omega
        simp at h2
        subst h2
        have hns : s ∉ ss := fun h => hs ((hm s).mpr h)
        rw [old x hx, List.idxOf_append_of_notMem hns]
        have := List.idxOf_lt_length_iff.mpr hx
        omega

theorem fixed_untouched {vm vm' : VM} (h : Untouched vm vm') {i : Nat} {s : Bytes} (k : Fixed vm i s) : Fixed vm' i s := by
  unfold Fixed
  rw [h.1]
  exact k

theorem fixed_call {F : CFuns} (hF : FFixed F) {sw : Bool} {vm vm' : VM} {i : Nat} {s : Bytes} (hv : Strman.Inv vm.strings) (h : VM.call F sw vm = .ok vm') (k : Fixed vm i s) :
    Fixed vm' i s := by
  have key : Outcome (fun w => Fixed w i s) (fun _ => True) (VM.call F sw vm) := by
    unfold VM.call need
    split
    · exact k
    refine (Outcome.any _).bind fun x _ => ?_
    split
    · simp only
      split
      · trivial
      split
      · exact k
      refine (Outcome.any _).bind fun c _ => ?_
      split
      · split
        · exact k
        split
        · exact k
        split
        · trivial
        · cases hr : F _ _ with
          | ok w => exact hF _ _ _ _ _ (by exact hv) hr (by exact k)
          | ub => trivial
          | abort => trivial
          | hang => trivial
      · exact k
    · exact k
  rw [h] at key
  exact key

theorem fixed_step {E : Env} {F : CFuns} (hF : FFixed F) {vm vm' : VM} {i : Nat} {s : Bytes} (hv : VInv vm) (h : VM.step E F vm = .ok vm') (k : Fixed vm i s) : Fixed vm' i s := by
  unfold VM.step at h
  by_cases hr : vm.state = .ready
  swap
  · rw [if_pos hr] at h
    cases h
    exact k
  rw [if_neg (by simpa using hr)] at h
  obtain ⟨h', sm', e1, j, _⟩ := collect_spec hv
  have k1 : Fixed { vm with heap := h', strings := sm' } i s := (collect_keeps hv e1).2 s i k
  rw [e1, Res.ok_bind] at h
  obtain ⟨n, _, h⟩ := Res.bind_eq_ok.mp h
  cases ho : opcodes[n]? with
  | none => rw [ho] at h; cases h; exact k1
  | some op =>
    rw [ho] at h
    simp only at h
    by_cases hc : op ∈ [Op.callc, .calls]
    · have key : ∀ sw, Outcome (fun w => Fixed w i s) (fun _ => True) (incPc { vm with heap := h', strings := sm' } (fun vm => do
          let vm ← call F sw vm
          ifReady vm (fun vm => assertPc vm pure))) := by
        intro sw
        unfold incPc
        rw [assertPc]
        split
        · exact k1
        refine Outcome.bind (Q := fun w => Fixed w i s) ?_ fun w hw => ?_
        · cases hx : call F sw { vm with heap := h', strings := sm', pc := vm.pc + 1 } with
          | ok w => exact fixed_call hF (by exact j.strings) hx k1
          | ub => trivial
          | abort => trivial
          | hang => trivial
        · unfold ifReady
          split
          · show Outcome _ _ (assertPc w pure)
            unfold assertPc
            split
            · exact hw
            · exact hw
          · exact hw
      simp only [List.mem_cons, List.not_mem_nil, or_false] at hc
      rcases hc with rfl | rfl
      · have : Outcome (fun w => Fixed w i s) (fun _ => True) (exec E F { vm with heap := h', strings := sm' } .callc) := key false
        rw [h] at this
        exact this
      · have : Outcome (fun w => Fixed w i s) (fun _ => True) (exec E F { vm with heap := h', strings := sm' } .calls) := key true
        rw [h] at this
        exact this
    · have := exec_unt (E := E) (F := F) { vm with heap := h', strings := sm' } op hc
      rw [h] at this
      exact fixed_untouched this k1

theorem fixed_reached {E : Env} {F : CFuns} (hO : FOk F) (hF : FFixed F) {vm w : VM} (hv : VInv vm) (hp : vm.state = .ready → PcIn vm) {i : Nat} {s : Bytes} (k : Fixed vm i s)
    (hw : Reached E F vm w) : Fixed w i s := by
  induction hw with
  | here => exact k
  | step hu e ih => exact fixed_step hF (hu.fine hO hv hp).1 e ih

/-! ### The property -/

/-- **C41**, compiler, assembler and loader.  The strings of a program are those given to the compiler and those that the program mentions;
`ss`, their list in the order of first occurrence, contains every string literal.  The assembly file begins with the number of these strings and
the strings in this order, the bytecode with the number and the zero-terminated strings in this order, and a new machine that has loaded the
bytecode has the `i`-th string, protected, under number `i` and no other strings. -/
theorem C41_numbering (fs : FS) (T : Tools) (order : List (Nat × Bytes) → List (Nat × Bytes)) (ho : ∀ l, (order l).Perm l) (pre : List Bytes) (fname path text : Bytes)
    (hf : fs fname = some (path, text)) (toks : List Tok) (fin : Bool) (hx : Lexed fs [path] path 1 0 (text ++ [10]) toks fin) (hpos : ∀ t ∈ toks, PosOk (mark t))
    (ts : List T2) (ht : (toks.filter (fun t => decide (t.type ≠ .statend))).map (fun t => (t.type, t.value)) = ts) (hts : ts ≠ [])
    (b : Ast) (hs : Syn .stats ts b) (hP : Link.Program T pre b) (E : Env) (he : E.endian = T.endian) :
    ∃ ss file code dbg, InOrder (pre ++ mentions .top b) ss ∧ (∀ s ∈ literals b, s ∈ ss) ∧
      (∃ N, ∀ m ≥ N, compile fs m pre fname = .ok (some file)) ∧ asm T order file = .ok (some (code, dbg)) ∧
      (∃ rest, file = 33 :: (Obj.digits ss.length ++ 10 :: ss.flatMap (fun s => 39 :: (s ++ [10]))) ++ rest) ∧
      (∃ rest, code = mem16 T.endian ss.length ++ (ss.flatMap (fun s => s ++ [0]) ++ rest)) ∧
      ∃ vm, VM.load E code VM.new = .ok vm ∧ ∀ (i : Nat) (s : Bytes) (p : Bool), FMap.get vm.strings.id2str i = some (s, p) ↔ ss[i]? = some s ∧ p = true := by
  obtain ⟨lex, hl, N, hx⟩ := C64_tokens fs fname path text hf toks fin hx
  obtain ⟨file, o, cs, dbg, h1, h2, h3, rest, h4⟩ := source_ok ho hl hx hpos ht hts hs hP
  obtain ⟨post, h5⟩ := bytecode_eq T pre b o cs
  have hio := firsts_inOrder (pre ++ mentions .top b)
  exact ⟨Link.stringsOf pre b, file, _, dbg, hio, fun s h => (hio.same s).mpr (List.mem_append_right _ (literals_mentioned s b .top h)), h1, h2, ⟨_, h4⟩, ⟨post, h5⟩, _,
    load_ok hP he, fun i s p => table_id⟩

/-- **C41**, the machine.  Whatever a machine does after it had string `s` under number `i` protected (as after loading), when it is at an
instruction that pushes string `i` it pushes `s` and goes on behind the instruction. -/
theorem C41_push {E : Env} {F : CFuns} (hO : FOk F) (hF : FFixed F) {vm w : VM} (hv : VInv vm) (hp : vm.state = .ready → PcIn vm) {i : Nat} {s : Bytes} (hi : i < 65536) (k : Fixed vm i s)
    (hw : Reached E F vm w) (hr : w.state = .ready) (ho : Fetched w .pushs) (ha : Arg E w i) :
    ∃ w' a, VM.step E F w = .ok w' ∧ w'.state = .ready ∧ w'.pc = w.pc + 5 ∧ w'.stack = a :: w.stack ∧ Holds w'.heap a (.atom (.str i s)) := by
  have hk := fixed_reached hO hF hv hp k hw
  obtain ⟨hwv, hwp⟩ := hw.fine hO hv hp
  obtain ⟨n, hn, hop⟩ := ho
  obtain ⟨h', sm', e1, j, _⟩ := collect_spec hwv
  have k1 : FMap.get sm'.id2str i = some (s, true) := (collect_keeps hwv e1).2 s i hk
  have hf2 : VM.fetch { w with heap := h', strings := sm' } = .ok n := by
    unfold VM.fetch
    rw [if_neg (by show ¬ w.pc < 0; have := (hwp hr).1; omega)]
    exact hn
  have e : VM.step E F w = .ok (pushS { w with heap := h', strings := sm', pc := w.pc + 5 } i) := by
    unfold VM.step
    rw [if_neg (by simp [hr]), e1, Res.ok_bind, hf2, Res.ok_bind, hop]
    exact incArg (v := { w with heap := h', strings := sm' }) (hwp hr) ha
  have e2 : pushS { w with heap := h', strings := sm', pc := w.pc + 5 } i = push { w with heap := h', strings := sm', pc := w.pc + 5 } (.atom (.str i s)) := by
    unfold pushS
    rw [show i % U16 = i from Nat.mod_eq_of_lt hi, show Strman.get _ i = some s by unfold Strman.get; rw [k1]; rfl]
  rw [e, e2]
  exact ⟨_, _, rfl, hr, rfl, rfl, holds_new j.heap _⟩

/-! ### A concrete case -/

/-- The program `x="b"`, `y="a"`, `z="b"` on three lines. -/
def wordsParts : List Part :=
  [.name [120], .mark 9, .str [98], .nl, .name [121], .mark 9, .str [97], .nl, .name [122], .mark 9, .str [98]]

def wordsText : Bytes := chars "x=\"b\"\ny=\"a\"\nz=\"b\""

def wordsFs : FS := fun n => if n = [97] then some ([97], wordsText) else none

def words : Ast := .seq (.assign (.id [120]) (.str [98])) (.seq (.assign (.id [121]) (.str [97])) (.seq (.assign (.id [122]) (.str [98])) .skip))

def wordsToks : List T2 := [(.id, [120]), (.assign, []), (.string, [98]), (.id, [121]), (.assign, []), (.string, [97]), (.id, [122]), (.assign, []), (.string, [98])]

theorem words_syn : Syn .stats wordsToks words := by
  have h : ∀ x s, Syn .stat ([(.id, x)] ++ (.assign, []) :: [(.string, s)]) (.assign (.id x) (.str s)) := fun x s => .simple (.assign (v := []) .id (by simp) (syn_expr .str))
  exact .stats (h _ _) (.stats (h _ _) (.stats (h _ _) .stats0 (by simp)) (by simp [Lang.bare])) (by simp [Lang.bare])

theorem words_program (T : Tools) : Link.Program T [] words where
  whole := rfl
  legal := by simp [words, Lang.Legal]
  once := by simp [words, Lang.functions, Lang.decls]
  nums := by
    intro t ht
    have ht : t ∈ ([] : List Bytes) := ht
    cases ht
  strs := by
    show ∀ s ∈ ([[120], [98], [121], [97], [122]] : List Bytes), ∀ c ∈ s, c ≠ 0 ∧ c ≠ 10
    decide
  count := by decide
  small := by decide

/-- The strings are numbered `x`, `b`, `y`, `a`, `z`; they stand so in the file and in the bytecode, and the machine has `b` under 1 and `a` under 3. -/
example (order : List (Nat × Bytes) → List (Nat × Bytes)) (ho : ∀ l, (order l).Perm l) :
    ∃ file code dbg vm, (∃ N, ∀ m ≥ N, compile wordsFs m [] [97] = .ok (some file)) ∧ asm someTools order file = .ok (some (code, dbg)) ∧
      (∃ rest, file = chars "!5\n'x\n'b\n'y\n'a\n'z\n" ++ rest) ∧ (∃ rest, code = [5, 0, 120, 0, 98, 0, 121, 0, 97, 0, 122, 0] ++ rest) ∧
      VM.load someEnv code VM.new = .ok vm ∧ Fixed vm 1 [98] ∧ Fixed vm 3 [97] ∧ FMap.get vm.strings.id2str 5 = none := by
  obtain ⟨ss, file, code, dbg, h1, _, h2, h3, ⟨r1, h4⟩, ⟨r2, h5⟩, vm, h6, h7⟩ := C41_numbering wordsFs someTools order ho [] [97] [97] wordsText rfl
    (partToks [97] 1 0 (wordsParts ++ [Part.nl])) true
    ((show parts (wordsParts ++ [Part.nl]) = wordsText ++ [10] by decide +kernel) ▸ parts_lexed wordsFs [[97]] [97] (wordsParts ++ [Part.nl]) 1 0 (by decide +kernel)) (by
      have : (∀ t ∈ partToks [97] 1 0 (wordsParts ++ [Part.nl]), (mark t).line < 100 ∧ (mark t).col < 100 ∧ (mark t).fname = [97]) := by decide +kernel
      intro t ht
      obtain ⟨a1, a2, a3⟩ := this t ht
      refine ⟨by omega, by omega, ?_, ?_⟩
      · rw [a3]; decide
      · rw [a3]; rintro x ⟨⟩; decide)
    wordsToks (by decide +kernel) (by decide) words words_syn (words_program someTools) someEnv rfl
  obtain rfl : ss = [[120], [98], [121], [97], [122]] := by
    have he : firsts ([] ++ mentions .top words) = [[120], [98], [121], [97], [122]] := by decide
    rw [← he]
    exact h1.unique (firsts_inOrder _)
  refine ⟨file, code, dbg, vm, h2, h3, ⟨r1, h4⟩, ⟨r2, h5⟩, h6, (h7 1 [98] true).mpr ⟨rfl, rfl⟩, (h7 3 [97] true).mpr ⟨rfl, rfl⟩, ?_⟩
  cases hg : FMap.get vm.strings.id2str 5 with
  | none => rfl
  | some e => cases ((h7 5 e.1 e.2).mp hg).1

/-- There are C functions that leave protected strings alone, and a machine that is ready to push one. -/
example : FFixed (fun _ vm => .ok vm) ∧ ∃ vm, VM.load someEnv [1, 0, 97, 0, 37, 0, 0, 0, 0, 1] VM.new = .ok vm ∧ Fixed vm 0 [97] ∧ vm.state = .ready ∧ Fetched vm .pushs ∧ Arg someEnv vm 0 ∧
    PcIn vm ∧ VInv vm := by
  refine ⟨fun n vm vm' i s _ h k => by cases h; exact k, _, rfl, rfl, rfl, ⟨37, rfl, rfl⟩, ⟨rfl, by decide⟩, ⟨by decide, by decide⟩, ?_⟩
  exact (load_inv (E := someEnv) (code := [1, 0, 97, 0, 37, 0, 0, 0, 0, 1]) (by decide) (by intro n h; cases h; decide) rfl).1

end Buzz.Props
