import Verif.Props.Library
import Verif.Script

/-
The string functions that are written in Buzz (src/include/string.bzz): property C68.

The script is `stringBzz` (`Verif/Bzz.lean`), byte for byte; what it means is said by `Verif/Sem.lean` and `Verif/SemLib.lean`.  The specification here
is about texts alone: `Occurs`, `charSpec` and `fields`.
-/
namespace Buzz.Props

open Buzz.Msg Buzz.Lex Buzz.Debug Buzz.Asm Buzz.Parser Buzz.Comp Buzz.VM Buzz.Heap Buzz.Sim Buzz.Link
open Buzz.Lang (Ast Thing Scope Shape St T2 Syn Host complete Legal globalVal stdLib)

/-! ## C68 -/

/-- The function `name` of `string`, called in the state `s`, returns `v` and leaves the state `s'`. -/
def Calls (H : Host) (n : Nat) (s : St) (name : String) (args : List Obj) (v : Obj) (s' : St) : Prop :=
  ∃ f, Lang.tabGet (globalVal (ascii "string") s) (.str 0 (ascii name)) s = .ok (.clo f) s ∧ Lang.apply H.lib (Lang.exec H n) (.clo f) args s = .ok v s'

/-- The script's functions are in the table `string`. -/
def StringReady (s : St) : Prop := ∃ l, Loaded s.globals s.store l

/-- The text `u` is in `t` at place `i`. -/
def Occurs (t u : Bytes) (i : Nat) : Prop := ∃ a b, t = a ++ u ++ b ∧ a.length = i

/-- Character `i` as a text, nil behind the end. -/
def charSpec (t : Bytes) (i : Nat) : Obj :=
  match t[i]? with
  | some c => .str 0 [c]
  | none => .nil

/-- The parts of a text between delimiters, without the empty ones. -/
def fields (d t : Bytes) : List Bytes := (t.splitOnP (fun c => decide (c ∈ d))).filter (fun p => p ≠ [])

/-- A `strcmp` that does not answer 2 for C strings. -/
structure Plain (sc : Bytes → Bytes → Int) : Prop where
  law : Obj.StrcmpLaw sc
  no2 : ∀ a b, Obj.CStr a → Obj.CStr b → sc a b ≠ 2

/-! ### Lemmas -/

theorem calls_fn {H : Host} {n : Nat} {g : List (Bytes × Obj)} {st st' : List Thing} {sc : Scope} {l : Nat} (h : Loaded g st l) {name : String} {k : Bytes} (hn : ascii name = k) {ps : List Bytes} {b : Ast}
    (hk : (k, Thing.fn ps b [(Lang.self, .tab l)]) ∈ stringFns l) {args : List Obj} (hl : args.length = ps.length) (h3 : ps.length < 90) {v : Obj} {env : List (Bytes × Obj)}
    (hr : Lang.exec H n b ⟨g, st, .fn ((Lang.self, .tab l) :: ps.zip args)⟩ = .ret v ⟨g, st', .fn env⟩) : Calls H n ⟨g, st, sc⟩ name args v ⟨g, st', sc⟩ := by
  obtain ⟨f, h1, h2⟩ := h.get hk
  refine ⟨f, ?_, ?_⟩
  · rw [hn, show ascii "string" = N.string from by decide]
    unfold globalVal
    rw [h.glob]
    exact h2 sc
  · exact apply_fn (s' := ⟨g, st', .fn env⟩) h1 (lim (by omega)) hl (lim (by simp; omega)) hr

theorem exec_eval (H : Host) (n : Nat) : ∃ run, Lang.exec H n = fun a => Lang.eval H n run a false := by
  cases n with
  | zero => exact ⟨_, rfl⟩
  | succ n => exact ⟨_, rfl⟩

theorem cstr_sub {t : Bytes} (h : Obj.CStr t) {u : Bytes} (hu : ∀ c ∈ u, c ∈ t) : Obj.CStr u := fun c hc => h c (hu c hc)

theorem same_plain {E : Env} (hE : Plain E.sc) {a b : Bytes} (ha : Obj.CStr a) (hb : Obj.CStr b) : same E a b = decide (a = b) := by
  unfold same
  rw [decide_eq_false (hE.no2 a b ha hb), Bool.false_or]
  exact decide_eq_decide.mpr (hE.law.zero a b ha hb)

theorem slice_occurs {t u : Bytes} {i : Nat} (h : i + u.length ≤ t.length) : (t.take (i + u.length)).drop i = u ↔ Occurs t u i := by
  rw [List.drop_take, Nat.add_sub_cancel_left]
  constructor
  · intro h1
    refine ⟨t.take i, (t.drop i).drop u.length, ?_, by simp; omega⟩
    have : t = t.take i ++ ((t.drop i).take u.length ++ (t.drop i).drop u.length) := by rw [List.take_append_drop, List.take_append_drop]
    rw [h1] at this
    rw [List.append_assoc]
    exact this
  · rintro ⟨a, b, rfl, rfl⟩
    rw [List.append_assoc, List.drop_left, List.take_left]

theorem occurs_bound {t u : Bytes} {i : Nat} (h : Occurs t u i) : i + u.length ≤ t.length := by
  obtain ⟨a, b, rfl, rfl⟩ := h
  simp

theorem hit_occurs {E : Env} (hE : Plain E.sc) {t u : Bytes} (ht : Obj.CStr t) (hu : Obj.CStr u) {i : Nat} (h : i + u.length ≤ t.length) : hit E t u i = true ↔ Occurs t u i := by
  unfold hit subVal
  by_cases hi : (i : Int) ≥ t.length
  · rw [if_pos (Or.inl hi)]
    have hu0 : u = [] := List.eq_nil_of_length_eq_zero (by omega)
    subst hu0
    exact ⟨fun _ => ⟨t, [], by simp, by simp at h; omega⟩, fun _ => rfl⟩
  · rw [if_neg (by omega), show ((i : Int) + u.length).toNat = i + u.length from by omega, show (i : Int).toNat = i from by omega]
    show same E _ u = true ↔ _
    rw [same_plain hE (cstr_sub ht fun c hc => List.mem_of_mem_take (List.mem_of_mem_drop hc)) hu, decide_eq_true_eq]
    exact slice_occurs h

theorem find_rev {p : Nat → Bool} : ∀ {n i : Nat}, (List.range n).reverse.find? p = some i → i < n ∧ p i = true ∧ ∀ j, i < j → j < n → p j = false
  | 0, i, h => by cases h
  | n + 1, i, h => by
    rw [List.range_succ, List.reverse_append, List.reverse_singleton, List.singleton_append, List.find?_cons] at h
    cases hp : p n
    · rw [hp] at h
      obtain ⟨h1, h2, h3⟩ := find_rev h
      refine ⟨by omega, h2, fun j hj hn => ?_⟩
      rcases Nat.lt_or_ge j n with k | k
      · exact h3 j hj k
      · rw [show j = n from by omega, hp]
    · rw [hp] at h
      obtain rfl := Option.some.inj h
      exact ⟨by omega, hp, fun j h1 h2 => by omega⟩

theorem pieces_fields (del : UInt8 → Bool) : ∀ (t cur : Bytes), pieces del cur t = ((t.splitOnP del).modifyHead (cur ++ ·)).filter (fun p => p ≠ [])
  | [], cur => by
    rw [pieces, List.splitOnP_nil]
    by_cases h : cur = []
    · simp [h]
    · simp [h]
  | c :: t, cur => by
    rw [pieces, List.splitOnP_cons]
    cases hd : del c
    · rw [if_neg (by simp), if_neg (by simp), pieces_fields del t, List.modifyHead_modifyHead]
      congr 2
      funext x
      simp
    · rw [if_pos rfl, if_pos rfl, pieces_fields del t]
      have hm : (t.splitOnP del).modifyHead (fun x => [] ++ x) = t.splitOnP del := by cases t.splitOnP del <;> simp
      rw [hm]
      by_cases h : cur = []
      · simp [h]
      · simp [h]

theorem isDel_plain {E : Env} (hE : Plain E.sc) {d : Bytes} (hd : Obj.CStr d) {c : UInt8} (hc : c ≠ 0) : isDel E d c = decide (c ∈ d) := by
  unfold isDel
  rw [Bool.eq_iff_iff, List.any_eq_true, decide_eq_true_eq]
  have key : ∀ x ∈ d, (same E [c] [x] = true ↔ c = x) := by
    intro x hx
    rw [same_plain hE (by intro y hy; rw [List.mem_singleton.mp hy]; exact hc) (by intro y hy; rw [List.mem_singleton.mp hy]; exact hd x hx)]
    simp
  constructor
  · rintro ⟨x, hx, h⟩
    rw [(key x hx).mp h]
    exact hx
  · intro h
    exact ⟨c, h, (key c h).mpr rfl⟩

theorem pieces_congr {p q : UInt8 → Bool} : ∀ (t cur : Bytes), (∀ c ∈ t, p c = q c) → pieces p cur t = pieces q cur t
  | [], cur, _ => rfl
  | c :: t, cur, h => by
    rw [pieces, pieces, h c (by simp), pieces_congr t [] (fun x hx => h x (by simp [hx])), pieces_congr t (cur ++ [c]) (fun x hx => h x (by simp [hx]))]

/-! ### The script -/

/-- **C68**: the script, executed after the registration of the library, puts its functions in the table `string` and changes nothing else that the
program can see: the global variables are as before, and so is every location but the table. -/
theorem C68_load (E : Env) (strtof : Bytes → Option Nat) (n robot : Nat) (s0 s1 : St) (h : Standard robot s0 s1) (ht : s0.scope = .top) :
    ∃ s2 l, Lang.exec ⟨E, strtof, stdLib⟩ n stringAst s1 = .ok [] s2 ∧ StringReady s2 ∧ s2.scope = .top ∧ s2.globals = s1.globals ∧ globalVal (ascii "string") s1 = .tab l ∧
      ∀ i < s1.store.length, i ≠ l → s2.store[i]? = s1.store[i]? := by
  obtain ⟨l, hl⟩ := standard_has h
  have hsc := h.scope
  rw [ht] at hsc
  obtain ⟨g, st, sc⟩ := s1
  subst hsc
  obtain ⟨run, hr⟩ := exec_eval ⟨E, strtof, stdLib⟩ n
  obtain ⟨st', h1, h2, h3⟩ := load_string (H := ⟨E, strtof, stdLib⟩) (n := n) (run := run) hl
  refine ⟨⟨g, st', .top⟩, l, ?_, ⟨l, h2⟩, rfl, rfl, ?_, h3⟩
  · rw [hr]
    exact h1
  · rw [show ascii "string" = N.string from by decide]
    unfold globalVal
    rw [hl.glob]
    rfl

/-- **C68**: `string.charat(t, i)` is character `i` of `t`, nil behind the end. -/
theorem C68_charat (E : Env) (strtof : Bytes → Option Nat) (n : Nat) (s : St) (hs : StringReady s) (t : Bytes) (ht : t.length < 2147483648) (i : Nat) (hi : i + 1 < 2147483648) :
    Calls ⟨E, strtof, stdLib⟩ n s "charat" [.str 0 t, .int i] (charSpec t i) s := by
  obtain ⟨l, h⟩ := hs
  obtain ⟨g, st, sc⟩ := s
  obtain ⟨run, hr⟩ := exec_eval ⟨E, strtof, stdLib⟩ n
  refine calls_fn h (k := N.charat) (ps := [N.s, N.n]) (b := charatBody) (by decide) (by simp [stringFns]) rfl (by decide) (v := charSpec t i) (env := [(Lang.self, .tab l), (N.s, .str 0 t), (N.n, .int i)]) ?_
  rw [hr]
  exact charat_body rfl h (by simp [Lang.short]; omega) (by constructor <;> omega)

/-- **C68**: `string.indexoffirst(t, u)` is the place of the first `u` in `t`, nil if there is none, for a `strcmp` that never answers 2. -/
theorem C68_indexoffirst (E : Env) (hE : Plain E.sc) (strtof : Bytes → Option Nat) (n : Nat) (s : St) (hs : StringReady s) (t u : Bytes) (ht : Obj.CStr t) (hu : Obj.CStr u) (hlt : t.length + 1 < 2147483648)
    (hlu : u.length < 2147483648) (hn : t.length + 1 < n) :
    (∃ i : Nat, Calls ⟨E, strtof, stdLib⟩ n s "indexoffirst" [.str 0 t, .str 0 u] (.int i) s ∧ Occurs t u i ∧ ∀ j < i, ¬ Occurs t u j) ∨
    (Calls ⟨E, strtof, stdLib⟩ n s "indexoffirst" [.str 0 t, .str 0 u] .nil s ∧ ∀ i, ¬ Occurs t u i) := by
  obtain ⟨l, h⟩ := hs
  obtain ⟨g, st, sc⟩ := s
  obtain ⟨run, hr⟩ := exec_eval ⟨E, strtof, stdLib⟩ n
  obtain ⟨env, hb⟩ := first_body (H := ⟨E, strtof, stdLib⟩) (n := n) (run := run) (t := t) (u := u) rfl h (by omega) (by omega) hn
  have hc : Calls ⟨E, strtof, stdLib⟩ n ⟨g, st, sc⟩ "indexoffirst" [.str 0 t, .str 0 u] _ ⟨g, st, sc⟩ :=
    calls_fn h (k := N.indexoffirst) (ps := [N.s, N.m]) (b := indexoffirstBody) (by decide) (by simp [stringFns]) rfl (by decide) (by rw [hr]; exact hb)
  cases hf : (List.range ((t.length : Int) - u.length + 1).toNat).find? (hit E t u) with
  | none =>
    rw [hf] at hc
    refine .inr ⟨hc, fun i ho => ?_⟩
    have hb := occurs_bound ho
    have := List.find?_eq_none.mp hf i (List.mem_range.mpr (by omega))
    exact this ((hit_occurs hE ht hu hb).mpr ho)
  | some i =>
    rw [hf] at hc
    obtain ⟨h1, h2, h3⟩ := List.find?_range_eq_some.mp hf
    rw [List.mem_range] at h2
    refine .inl ⟨i, hc, (hit_occurs hE ht hu (by omega)).mp h1, fun j hj ho => ?_⟩
    have := h3 j hj
    rw [(hit_occurs hE ht hu (by omega)).mpr ho] at this
    cases this

/-- **C68**: `string.indexoflast(t, u)` is the place of the last `u` in `t`, nil if there is none, if `u` has at least two characters. -/
theorem C68_indexoflast (E : Env) (hE : Plain E.sc) (strtof : Bytes → Option Nat) (n : Nat) (s : St) (hs : StringReady s) (t u : Bytes) (ht : Obj.CStr t) (hu : Obj.CStr u) (hlt : t.length + 1 < 2147483648)
    (hlu : u.length < 2147483648) (h2 : 2 ≤ u.length) (hn : t.length + 2 < n) :
    (∃ i : Nat, Calls ⟨E, strtof, stdLib⟩ n s "indexoflast" [.str 0 t, .str 0 u] (.int i) s ∧ Occurs t u i ∧ ∀ j > i, ¬ Occurs t u j) ∨
    (Calls ⟨E, strtof, stdLib⟩ n s "indexoflast" [.str 0 t, .str 0 u] .nil s ∧ ∀ i, ¬ Occurs t u i) := by
  obtain ⟨l, h⟩ := hs
  obtain ⟨g, st, sc⟩ := s
  obtain ⟨run, hr⟩ := exec_eval ⟨E, strtof, stdLib⟩ n
  obtain ⟨env, hb⟩ := last_body (H := ⟨E, strtof, stdLib⟩) (n := n) (run := run) (t := t) (u := u) rfl h (by omega) (by omega) hn
  have hc : Calls ⟨E, strtof, stdLib⟩ n ⟨g, st, sc⟩ "indexoflast" [.str 0 t, .str 0 u] _ ⟨g, st, sc⟩ :=
    calls_fn h (k := N.indexoflast) (ps := [N.s, N.m]) (b := indexoflastBody) (by decide) (by simp [stringFns]) rfl (by decide) (by rw [hr]; exact hb)
  have hend : ∀ i, i < ((t.length : Int) - u.length + 2).toNat → hit E t u i = true → i + u.length ≤ t.length := by
    intro i hi hh
    rcases Nat.lt_or_ge (i + u.length) (t.length + 1) with k | k
    · omega
    · exfalso
      unfold hit subVal at hh
      rw [if_neg (by omega)] at hh
      have hh : same E _ u = true := hh
      rw [same_plain hE (cstr_sub ht fun c hc => List.mem_of_mem_take (List.mem_of_mem_drop hc)) hu, decide_eq_true_eq] at hh
      have := congrArg List.length hh
      simp at this
      omega
  cases hf : (List.range ((t.length : Int) - u.length + 2).toNat).reverse.find? (hit E t u) with
  | none =>
    rw [hf] at hc
    refine .inr ⟨hc, fun i ho => ?_⟩
    have hb := occurs_bound ho
    have := List.find?_eq_none.mp hf i (List.mem_reverse.mpr (List.mem_range.mpr (by omega)))
    exact this ((hit_occurs hE ht hu hb).mpr ho)
  | some i =>
    rw [hf] at hc
    obtain ⟨h1, h2, h3⟩ := find_rev hf
    refine .inl ⟨i, hc, (hit_occurs hE ht hu (hend i h1 h2)).mp h2, fun j hj ho => ?_⟩
    have hb := occurs_bound ho
    have := h3 j hj (by omega)
    rw [(hit_occurs hE ht hu hb).mpr ho] at this
    cases this

/-- **C68**, the deviation: for a text `u` of no or one character, `string.indexoflast(t, u)` is the length of `t` or one more, whatever the texts are and
whether or not `u` occurs in `t`: the first place that is tried is behind the end, where `string.sub` gives nil, which is equal to everything. -/
theorem C68_indexoflast_short (E : Env) (strtof : Bytes → Option Nat) (n : Nat) (s : St) (hs : StringReady s) (t u : Bytes) (hlt : t.length + 1 < 2147483648) (h2 : u.length ≤ 1) (hn : t.length + 2 < n) :
    Calls ⟨E, strtof, stdLib⟩ n s "indexoflast" [.str 0 t, .str 0 u] (.int (t.length + 1 - u.length : Nat)) s := by
  obtain ⟨l, h⟩ := hs
  obtain ⟨g, st, sc⟩ := s
  obtain ⟨run, hr⟩ := exec_eval ⟨E, strtof, stdLib⟩ n
  obtain ⟨env, hb⟩ := last_body (H := ⟨E, strtof, stdLib⟩) (n := n) (run := run) (t := t) (u := u) rfl h (by omega) (by omega) hn
  have hc : Calls ⟨E, strtof, stdLib⟩ n ⟨g, st, sc⟩ "indexoflast" [.str 0 t, .str 0 u] _ ⟨g, st, sc⟩ :=
    calls_fn h (k := N.indexoflast) (ps := [N.s, N.m]) (b := indexoflastBody) (by decide) (by simp [stringFns]) rfl (by decide) (by rw [hr]; exact hb)
  have hr : ((t.length : Int) - u.length + 2).toNat = t.length + 1 - u.length + 1 := by omega
  have hh : hit E t u (t.length + 1 - u.length) = true := by
    unfold hit subVal
    rw [if_pos (by omega)]
    rfl
  rw [hr, List.range_succ, List.reverse_append, List.reverse_singleton, List.singleton_append, List.find?_cons] at hc
  change Calls _ _ _ _ _ (found (match hit E t u (t.length + 1 - u.length) with | true => _ | false => _)) _ at hc
  rw [hh] at hc
  exact hc

/-- **C68**, the deviation with the usual `strcmp`, which answers the difference of two characters: two texts whose difference is 2 are taken for equal,
so `string.indexoffirst("c", "a")` is 0. -/
theorem C68_indexoffirst_two (E : Env) (hE : E.sc = Obj.strcmpDiff) (strtof : Bytes → Option Nat) (n : Nat) (s : St) (hs : StringReady s) (hn : 2 < n) :
    Calls ⟨E, strtof, stdLib⟩ n s "indexoffirst" [.str 0 (ascii "c"), .str 0 (ascii "a")] (.int 0) s ∧ ∀ i, ¬ Occurs (ascii "c") (ascii "a") i := by
  obtain ⟨l, h⟩ := hs
  obtain ⟨g, st, sc⟩ := s
  obtain ⟨run, hr⟩ := exec_eval ⟨E, strtof, stdLib⟩ n
  rw [show ascii "c" = [99] from by decide, show ascii "a" = [97] from by decide]
  obtain ⟨env, hb⟩ := first_body (H := ⟨E, strtof, stdLib⟩) (n := n) (run := run) (t := [99]) (u := [97]) rfl h (by decide) (by decide) (by simpa using hn)
  have hc : Calls ⟨E, strtof, stdLib⟩ n ⟨g, st, sc⟩ "indexoffirst" [.str 0 [99], .str 0 [97]] _ ⟨g, st, sc⟩ :=
    calls_fn h (k := N.indexoffirst) (ps := [N.s, N.m]) (b := indexoffirstBody) (by decide) (by simp [stringFns]) rfl (by decide) (by rw [hr]; exact hb)
  refine ⟨?_, ?_⟩
  · have hh : hit E [99] [97] 0 = true := by
      unfold hit subVal eqVal same
      rw [hE]
      decide
    have hf : (List.range ((([99] : Bytes).length : Int) - ([97] : Bytes).length + 1).toNat).find? (hit E [99] [97]) = some 0 := by
      show (List.range 1).find? _ = _
      rw [List.range_succ, List.range_zero, List.nil_append, List.find?_cons, hh]
    rw [hf] at hc
    exact hc
  · rintro i ⟨a, b, h1, _⟩
    have : (97 : UInt8) ∈ ([99] : Bytes) := by rw [h1]; simp
    simp at this

/-- **C68**: `string.split(t, d)` is a new table with the parts of `t` between the characters of `d`, numbered from 0, without the empty ones. -/
theorem C68_split (E : Env) (hE : Plain E.sc) (strtof : Bytes → Option Nat) (n : Nat) (s : St) (hs : StringReady s) (t d : Bytes) (ht : Obj.CStr t) (hd : Obj.CStr d) (hlt : t.length + 1 < 2147483648)
    (hld : d.length + 1 < 2147483648) (hn : t.length < n) (hn' : d.length + 1 < n) :
    ∃ es, Calls ⟨E, strtof, stdLib⟩ n s "split" [.str 0 t, .str 0 d] (.tab s.store.length) { s with store := s.store ++ [.tab es] } ∧
      es = (fields d t).zipIdx.map (fun e => (.int (e.2 : Nat), .str 0 e.1)) := by
  obtain ⟨l, h⟩ := hs
  obtain ⟨g, st, sc⟩ := s
  obtain ⟨m, rfl⟩ : ∃ m, n = m + 1 := ⟨n - 1, by omega⟩
  obtain ⟨env, hb⟩ := split_body (H := ⟨E, strtof, stdLib⟩) (n := m + 1) (m := m) (t := t) (d := d) rfl h (by omega) (by omega) hn' hn
  have hc : Calls ⟨E, strtof, stdLib⟩ (m + 1) ⟨g, st, sc⟩ "split" [.str 0 t, .str 0 d] _ ⟨g, _, sc⟩ :=
    calls_fn h (k := N.split) (ps := [N.s, N.d]) (b := splitBody) (by decide) (by simp [stringFns]) rfl (by decide) hb
  refine ⟨_, hc, ?_⟩
  show Props.tokens _ = _
  unfold Props.tokens
  congr 2
  rw [show pieces (isDel E d) [] t = pieces (fun c => decide (c ∈ d)) [] t from pieces_congr t [] (fun c hc => isDel_plain hE hd (ht c hc)), pieces_fields]
  unfold fields
  congr 1
  cases t.splitOnP (fun c => decide (c ∈ d)) <;> simp

/-- Such a `strcmp` exists. -/
example : Plain (fun a b => (Obj.strcmpDiff a b).sign) where
  law :=
    { zero := fun a b ha hb => by rw [Int.sign_eq_zero_iff_zero]; exact Obj.strcmpDiff_law.zero a b ha hb
      neg := fun a b ha hb => by rw [← Obj.strcmpDiff_law.neg a b ha hb]; exact Int.sign_neg_iff }
  no2 := fun a b _ _ => by
    rcases Int.lt_trichotomy (Obj.strcmpDiff a b) 0 with h | h | h
    · rw [Int.sign_eq_neg_one_of_neg h]; decide
    · rw [h]; decide
    · rw [Int.sign_eq_one_of_pos h]; decide

/-- There are states in which the script's functions are in their place: those after the script. -/
example (robot : Nat) (s0 : St) (ht : s0.scope = .top) : ∃ s1 s2, Lang.install robot s0 = .ok () s1 ∧ Lang.exec ⟨someEnv, someTools.strtof, stdLib⟩ 5 stringAst s1 = .ok [] s2 ∧ StringReady s2 := by
  obtain ⟨s1, h1, h2⟩ := C67_library robot s0
  obtain ⟨s2, _, h3, h4, _⟩ := C68_load someEnv someTools.strtof 5 robot s0 s1 h2 ht
  exact ⟨s1, s2, h1, h3, h4⟩

/-! ### The text -/

theorem partToks_name (name : Bytes) : ∀ (ps : List Part) (l k : Nat), partToks name l k ps = (partToks [] l k ps).map (fun t => { t with fname := name })
  | [], l, k => rfl
  | p :: ps, l, k => by
    have ih := partToks_name name ps
    cases p with
    | mark i =>
      simp only [partToks]
      split
      · rw [ih]; rfl
      · rfl
    | word i =>
      simp only [partToks]
      split
      · rw [ih]; rfl
      · rfl
    | _ => simp only [partToks]; rw [ih]; try rfl

theorem sigToks_name (name : Bytes) (ts : List Tok) : sigToks (ts.map (fun t => { t with fname := name })) = sigToks ts := by
  unfold sigToks
  rw [List.filter_map, List.map_map]
  rfl

/-- The text of the script, under any name, is the sequence of tokens of the syntax tree `stringAst`. -/
theorem C68_source (fs : FS) (act : List Bytes) (name : Bytes) : ∃ toks, Lexed fs act name 1 0 (stringBzz ++ [10]) toks true ∧
    (∀ t ∈ toks, t.fname = name ∧ t.type ≠ .eof ∧ t.line < 1000 ∧ t.col < 1000) ∧ sigToks toks ≠ [] ∧ Syn .stats (sigToks toks) stringAst := by
  obtain ⟨h1, h2, h3⟩ := string_read
  refine ⟨partToks name 1 0 stringParts, h1 ▸ parts_lexed fs act name stringParts 1 0 h2, ?_, ?_, ?_⟩
  · have : ∀ t ∈ partToks [] 1 0 stringParts, t.type ≠ .eof ∧ t.line < 1000 ∧ t.col < 1000 := by decide +kernel
    intro t ht
    rw [partToks_name] at ht
    obtain ⟨t', h, rfl⟩ := List.mem_map.mp ht
    exact ⟨rfl, this t' h⟩
  · rw [partToks_name, sigToks_name]
    intro h
    rw [h] at h3
    revert h3
    decide +kernel
  · rw [partToks_name, sigToks_name]
    exact Lang.astOf_sound h3

/-- `Legal` by computation. -/
def legalB : Shape → Ast → Bool
  | sh, .bin _ a b => legalB sh a && legalB (sh.ext (Lang.decls a)) b
  | sh, .un _ a => legalB sh a
  | sh, .lam ps b => legalB (.fn (sh.params ps)) b
  | sh, .tset t _ e => legalB sh t && legalB (sh.ext (Lang.decls t)) e
  | sh, .field r _ => legalB sh r
  | sh, .index r e => legalB sh r && legalB (sh.ext (Lang.decls r)) e
  | sh, .call f as => legalB sh f && legalB (sh.ext (Lang.decls f)) as
  | sh, .arg as a => legalB sh as && legalB (sh.ext (Lang.decls as)) a
  | sh, .decl x => decide (x ∉ sh.vars)
  | sh, .init x e => decide (x ∉ sh.vars) && legalB (sh.ext [x]) e
  | sh, .assign r e => legalB sh r && legalB (sh.ext (Lang.decls r)) e
  | sh, .run r => legalB sh r
  | _, .func _ _ _ => false
  | sh, .ifs c a => legalB sh c && legalB (sh.ext (Lang.decls c)) a
  | sh, .ite c a b => legalB sh c && (legalB (sh.ext (Lang.decls c)) a && legalB (sh.ext (Lang.decls c ++ Lang.decls a)) b)
  | sh, .while_ c a => legalB sh c && legalB (sh.ext (Lang.decls c)) a
  | _, .for_ _ _ _ _ => false
  | sh, .ret e => legalB sh e
  | sh, .block b => legalB sh.block b
  | sh, .seq s l => legalB sh s && legalB (sh.ext (Lang.decls s)) l
  | _, _ => true

theorem legalB_sound : ∀ (a : Ast) (sh : Shape), legalB sh a = true → Legal sh a := by
  intro a
  induction a with
  | func f ps b ih => intro sh h; cases h
  | for_ i c u a => intro sh h; cases h
  | nil => intro sh h; trivial
  | num => intro sh h; trivial
  | str => intro sh h; trivial
  | tnew => intro sh h; trivial
  | id => intro sh h; trivial
  | noArg => intro sh h; trivial
  | ret0 => intro sh h; trivial
  | skip => intro sh h; trivial
  | decl x => intro sh h; exact of_decide_eq_true (p := x ∉ sh.vars) h
  | init x e ih =>
    intro sh h
    simp only [legalB, Bool.and_eq_true] at h
    exact ⟨of_decide_eq_true h.1, ih _ h.2⟩
  | un o a ih => intro sh h; exact ih _ h
  | lam ps b ih => intro sh h; exact ih _ h
  | field r k ih => intro sh h; exact ih _ h
  | run r ih => intro sh h; exact ih _ h
  | ret e ih => intro sh h; exact ih _ h
  | block b ih => intro sh h; exact ih _ h
  | ite c a b ih1 ih2 ih3 =>
    intro sh h
    simp only [legalB, Bool.and_eq_true] at h
    exact ⟨ih1 _ h.1, ih2 _ h.2.1, ih3 _ h.2.2⟩
  | tset t k e ih1 ih2 =>
    intro sh h
    simp only [legalB, Bool.and_eq_true] at h
    exact ⟨ih1 _ h.1, ih2 _ h.2⟩
  | _ =>
    rename_i ih1 ih2
    intro sh h
    simp only [legalB, Bool.and_eq_true] at h
    exact ⟨ih1 _ h.1, ih2 _ h.2⟩

theorem string_program (T : Tools) : Link.Program T [] stringAst where
  whole := rfl
  legal := legalB_sound _ _ (by decide +kernel)
  once := by intro d hd; cases hd
  nums := by
    have h : ∀ (t : Bytes) (v : Int), t ≠ [] → Clean t → 46 ∉ t → Lang.decimal t = some v → v.natAbs < 18446744073709551616 → Link.NumOk T t :=
      fun t v h1 h2 h3 h4 h5 => ⟨h1, h2, fun h => absurd h h3, fun _ => ⟨v, h4, h5⟩⟩
    have hc : ∀ t ∈ consts stringAst, t = N.d0 ∨ t = N.d1 := by decide +kernel
    intro t ht
    rcases hc t ht with rfl | rfl
    · exact h _ 0 (by decide) (by unfold Clean; decide) (by decide) (by decide) (by decide)
    · exact h _ 1 (by decide) (by unfold Clean; decide) (by decide) (by decide) (by decide)
  strs := by
    show ∀ s ∈ Link.stringsOf [] stringAst, ∀ c ∈ s, c ≠ 0 ∧ c ≠ 10
    decide +kernel
  count := by decide +kernel
  small := by decide +kernel

/-- **C68**: the script on the machine.  The file is compiled, assembled and loaded with the library; its execution ends with an empty stack, and the
machine holds a state in which the four functions are in the table `string`, unless it comes to have more than 65533 different strings. -/
theorem C68_machine (fs : FS) (T : Tools) (order : List (Nat × Bytes) → List (Nat × Bytes)) (ho : ∀ l, (order l).Perm l) (fname path : Bytes) (hf : fs fname = some (path, stringBzz))
    (hp : ∀ x ∈ path, x ≠ 0 ∧ x ≠ 10 ∧ x ≠ 44 ∧ x ≠ 124) (hl : ∀ x, path.getLast? = some x → isSpace x = false)
    (E : Env) (other : CFuns) (he : E.endian = T.endian) (hF : FOk other) (hE : Obj.StrcmpLaw E.sc) (robot : Nat) (hrob : robot < 65536) :
    ∃ file code dbg vm1, (∃ N, ∀ m ≥ N, compile fs m [] fname = .ok (some file)) ∧ asm T order file = .ok (some (code, dbg)) ∧
      (∃ N, ∀ m ≥ N, setBcode E (stdFuns E other) m robot code VM.new = .ok vm1) ∧
      ((∃ k vm', stepN E (stdFuns E other) k vm1 = .ok vm' ∧ 65533 < vm'.strings.id2str.length) ∨
        ∃ vm2 s, (∃ N, ∀ m ≥ N, VM.run E (stdFuns E other) m vm1 = .ok vm2) ∧ vm2.state = .done ∧ vm2.stack = [] ∧ Held (Link.stringsOf [] stringAst) s vm2 ∧ StringReady s) := by
  obtain ⟨toks, hx, ht, hne, hs⟩ := C68_source fs [path] path
  obtain ⟨file, code, dbg, h1, h2, h3, h4⟩ := C67_program fs T order ho [] fname path stringBzz hf toks true hx (by
      intro t htt
      obtain ⟨k1, k2, k3, k4⟩ := ht t htt
      refine ⟨?_, ?_, ?_, ?_⟩
      · show t.line < _
        omega
      · show t.col < _
        omega
      · unfold Parser.mark
        rw [if_neg k2, k1]
        exact hp
      · unfold Parser.mark
        rw [if_neg k2, k1]
        exact hl)
    _ rfl hne stringAst hs (string_program T) (by decide +kernel) E other he hF hE robot hrob
  obtain ⟨s1, vm1, i1, h5, _, _, _, _, _, h7⟩ := h4 (Nat.le_trans h3 (by decide +kernel)) ⟨[], [], .top⟩ rfl
  obtain ⟨s1', j1, j2⟩ := C67_library robot ⟨[], [], .top⟩
  rw [i1] at j1
  obtain rfl : s1 = s1' := by injection j1
  refine ⟨file, code, dbg, vm1, h1, h2, h5, ?_⟩
  obtain ⟨s2, l, i2, i3, _⟩ := C68_load E T.strtof 0 robot _ s1 j2 rfl
  rcases h7 0 with h7 | h7
  · exact .inl h7
  rw [i2] at h7
  obtain ⟨vm2, h8, h9, h10, _, _, h11⟩ := h7
  exact .inr ⟨vm2, s2, h8, h9, h10, h11, i3⟩

/-- Such a file is found under its name, for instance. -/
example : (fun n => if n = ascii "string.bzz" then some (ascii "/usr/string.bzz", stringBzz) else none : FS) (ascii "string.bzz") = some (ascii "/usr/string.bzz", stringBzz) := if_pos rfl

example : fields (ascii ",;") (ascii "ab,;c;") = [ascii "ab", ascii "c"] := by decide +kernel
example : Occurs (ascii "abcbc") (ascii "bc") 3 := ⟨ascii "abc", [], by decide, by decide⟩
example : charSpec (ascii "abc") 1 = .str 0 (ascii "b") ∧ charSpec (ascii "abc") 3 = .nil := by decide

end Buzz.Props
