import Verif.StringLib
import Verif.Props.VMValues

/-
Property C46 (the string library) and C58 (numbers as text), proved about the model of src/buzz/buzzstring.c.
-/
namespace Buzz.Props

open Buzz.F32 Buzz.Msg Buzz.Heap Buzz.VM

/-! ### Specification -/

/-- What a script sees of an argument or result: contents only, no addresses and no string numbers. -/
inductive Data where
  | nil
  | int (v : Int)
  | flt (f : Flt)
  | str (s : Bytes)
  deriving DecidableEq

/-- An object with this content. -/
def Data.reads : Data → Cell → Prop
  | .nil, c => c = .atom .nil
  | .int v, c => c = .atom (.int v)
  | .flt f, c => c = .atom (.flt f)
  | .str s, c => ∃ sid, c = .atom (.str sid s)

/-- The addresses hold objects with these contents. -/
def Reads (vm : VM) (args : List Nat) (ds : List Data) : Prop := List.Forall₂ (fun a d => ∃ c, Holds vm.heap a c ∧ d.reads c) args ds

/-- The C function returns this value whenever it is called with arguments of these contents, and changes nothing else that exists. -/
def Computes (f : VM → Res VM) (ds : List Data) (d : Data) : Prop :=
  ∀ vm args, Entry vm args → vm.strings.id2str.length ≤ 65533 → Reads vm args ds → ∃ w c, f vm = .ok w ∧ Gives vm w c ∧ d.reads c

/-- The C function stops the machine with this error. -/
def Fails (f : VM → Res VM) (ds : List Data) (e : Err) : Prop :=
  ∀ vm args, Entry vm args → Reads vm args ds → ∃ w, f vm = .ok w ∧ w.state = .error ∧ w.error = e

/-- The C function is undefined on these arguments. -/
def Undefined (f : VM → Res VM) (ds : List Data) : Prop := ∀ vm args, Entry vm args → Reads vm args ds → f vm = .ub

/-- A C string: no zero byte, and a length that is a script integer. -/
def Text (s : Bytes) : Prop := (0 : UInt8) ∉ s ∧ s.length < 2147483648

/-! ### Proofs -/

theorem takeWhile_all {p : UInt8 → Bool} : ∀ {s : Bytes}, (∀ x ∈ s, p x = true) → s.takeWhile p = s
  | [], _ => rfl
  | c :: s, h => by
    rw [List.takeWhile_cons, if_pos (h c (List.mem_cons_self ..)), takeWhile_all fun x hx => h x (List.mem_cons_of_mem _ hx)]

theorem cstr_eq {s : Bytes} (h : (0 : UInt8) ∉ s) : cstr s = s := by
  refine takeWhile_all fun x hx => ?_
  have : x ≠ 0 := fun e => h (e ▸ hx)
  simpa using this

theorem Text.cstr {s : Bytes} (h : Text s) : cstr s = s := cstr_eq h.1

theorem Text.len {s : Bytes} (h : Text s) : intOfU32 (s.length % 4294967296) = s.length := by
  have := h.2
  unfold intOfU32
  rw [Nat.mod_eq_of_lt (by omega), if_pos this]

theorem i32_nat {n : Nat} (h : n < 2147483648) : I32 (n : Int) := by unfold I32; omega

theorem reads_str {vm : VM} {a : Nat} {s : Bytes} (h : ∃ c, Holds vm.heap a c ∧ (Data.str s).reads c) :
    ∃ sid, Holds vm.heap a (.atom (.str sid s)) := by
  obtain ⟨c, h1, sid, rfl⟩ := h
  exact ⟨sid, h1⟩

theorem reads_int {vm : VM} {a : Nat} {v : Int} (h : ∃ c, Holds vm.heap a c ∧ (Data.int v).reads c) : Holds vm.heap a (.atom (.int v)) := by
  obtain ⟨c, h1, rfl⟩ := h
  exact h1

theorem reads_one {vm : VM} {args : List Nat} {d : Data} (h : Reads vm args [d]) : ∃ a, args = [a] ∧ ∃ c, Holds vm.heap a c ∧ d.reads c := by
  cases h with
  | cons h1 h2 => cases h2; exact ⟨_, rfl, h1⟩

theorem reads_two {vm : VM} {args : List Nat} {d e : Data} (h : Reads vm args [d, e]) :
    ∃ a b, args = [a, b] ∧ (∃ c, Holds vm.heap a c ∧ d.reads c) ∧ ∃ c, Holds vm.heap b c ∧ e.reads c := by
  cases h with
  | cons h1 h2 => obtain ⟨b, rfl, h3⟩ := reads_one h2; exact ⟨_, _, rfl, h1, h3⟩

theorem reads_three {vm : VM} {args : List Nat} {d e f : Data} (h : Reads vm args [d, e, f]) :
    ∃ a b c, args = [a, b, c] ∧ (∃ c, Holds vm.heap a c ∧ d.reads c) ∧ (∃ c, Holds vm.heap b c ∧ e.reads c) ∧ ∃ x, Holds vm.heap c x ∧ f.reads x := by
  cases h with
  | cons h1 h2 => obtain ⟨b, c, rfl, h3, h4⟩ := reads_two h2; exact ⟨_, _, _, rfl, h1, h3, h4⟩

theorem ret_int {vm u : VM} {args : List Nat} (e : Entry vm args) (w : Work vm u) {v : Int} (hv : I32 v) :
    ∃ x, ret1 (pushInt u v) = .ok x ∧ Gives vm x (.atom (.int v)) := by
  obtain ⟨k1, k2⟩ := w.push (c := .atom (.int v)) hv
  exact ret1_gives e k1 k2

theorem ret_nil {vm u : VM} {args : List Nat} (e : Entry vm args) (w : Work vm u) : ∃ x, ret1 (pushNil u) = .ok x ∧ Gives vm x (.atom .nil) := by
  obtain ⟨k1, k2⟩ := w.push (c := .atom .nil) trivial
  exact ret1_gives e k1 k2

theorem ret_str {vm u : VM} {args : List Nat} (e : Entry vm args) (w : Work vm u) (hz : u.strings.id2str.length ≤ 65533) (s : Bytes) :
    ∃ x sid, (do let u ← pushStr u s; ret1 u) = .ok x ∧ Gives vm x (.atom (.str sid s)) := by
  obtain ⟨u', sid, k1, k2, k3⟩ := w.pushStr hz s
  obtain ⟨x, k4, k5⟩ := ret1_gives e k2 k3
  exact ⟨x, sid, by rw [k1]; exact k4, k5⟩

/-- **C46**, length. -/
theorem C46_length (s : Bytes) (hs : Text s) : Computes strLength [.str s] (.int s.length) := by
  intro vm args e hz hr
  obtain ⟨a, rfl, h⟩ := reads_one hr
  obtain ⟨sid, h⟩ := reads_str h
  obtain ⟨l1, l2, l3⟩ := e.load (Work.refl e.inv) (k := 0) rfl h
  obtain ⟨x, x1, x2⟩ := ret_int e l2 (v := s.length) (i32_nat hs.2)
  refine ⟨x, _, ?_, x2, rfl⟩
  unfold strLength
  rw [e.lnum]
  simp only [Res.ok_bind, List.length_cons, List.length_nil, Nat.zero_add, Nat.cast_one, ne_eq, not_true, if_false] at l1 ⊢
  rw [show lload vm 1 = .ok (pushAddr vm a) from l1, Res.ok_bind, l3, Res.ok_bind]
  simp only [objOf, hs.cstr, hs.len]
  exact x1

/-- The characters from position `n` up to position `m`, which is cut at the end of the string; nil when the range begins after the
end or `m` lies before `n`. -/
def Slice (s : Bytes) (n m : Nat) : Data :=
  if n < s.length ∧ n ≤ m then .str ((s.take m).drop n) else .nil

theorem slice_take {s : Bytes} (n m : Nat) : (s.drop n).take (m - n) = (s.take m).drop n := by rw [List.drop_take]

/-- **C46**, sub with two arguments: the rest of the string. -/
theorem C46_sub_from (s : Bytes) (hs : Text s) (n : Nat) : Computes strSub [.str s, .int n] (Slice s n s.length) := by
  intro vm args e hz hr
  obtain ⟨a, b, rfl, h, h'⟩ := reads_two hr
  obtain ⟨sid, h⟩ := reads_str h
  replace h' := reads_int h'
  obtain ⟨l1, l2, l3⟩ := e.load (Work.refl e.inv) (k := 0) rfl h
  obtain ⟨m1, m2, m3⟩ := e.load l2 (k := 1) rfl h'
  have key : strSub vm = if (n : Int) ≥ s.length then ret1 (pushNil (pushAddr (pushAddr vm a) b)) else subTail (pushAddr (pushAddr vm a) b) s n s.length := by
    unfold strSub
    rw [e.lnum]
    simp only [Res.ok_bind, List.length_cons, List.length_nil, Nat.zero_add, Nat.reduceAdd] at l1 m1 ⊢
    rw [if_neg (by simp), show lload vm 1 = .ok (pushAddr vm a) from l1, Res.ok_bind, l3, Res.ok_bind]
    simp only [objOf, hs.cstr, hs.len]
    rw [show lload (pushAddr vm a) 2 = .ok (pushAddr (pushAddr vm a) b) from m1, Res.ok_bind, m3, Res.ok_bind]
    simp only [objOf]
    rw [if_neg (show ¬ ((2 : Nat) : Int) = 3 by decide)]
  rw [key]
  by_cases c : n < s.length
  · obtain ⟨x, sid', x1, x2⟩ := ret_str e m2 hz ((s.take s.length).drop n)
    refine ⟨x, _, ?_, x2, ?_⟩
    · rw [if_neg (by omega)]
      unfold subTail
      rw [if_neg (by omega), ← x1]
      congr 2
      rw [← slice_take]
      congr 1 <;> omega
    · unfold Slice
      rw [if_pos ⟨c, by omega⟩]
      exact ⟨_, rfl⟩
  · obtain ⟨x, x1, x2⟩ := ret_nil e m2
    refine ⟨x, _, ?_, x2, ?_⟩
    · rw [if_pos (by omega)]; exact x1
    · unfold Slice
      rw [if_neg (fun k => c k.1)]
      rfl

/-- **C46**, sub with three arguments. -/
theorem C46_sub_range (s : Bytes) (hs : Text s) (n m : Nat) : Computes strSub [.str s, .int n, .int m] (Slice s n m) := by
  intro vm args e hz hr
  obtain ⟨a, b, d, rfl, h, h', h''⟩ := reads_three hr
  obtain ⟨sid, h⟩ := reads_str h
  replace h' := reads_int h'
  replace h'' := reads_int h''
  obtain ⟨l1, l2, l3⟩ := e.load (Work.refl e.inv) (k := 0) rfl h
  obtain ⟨m1, m2, m3⟩ := e.load l2 (k := 1) rfl h'
  obtain ⟨n1, n2, n3⟩ := e.load m2 (k := 2) rfl h''
  have key : strSub vm = if (n : Int) ≥ s.length then ret1 (pushNil (pushAddr (pushAddr vm a) b))
      else if (m : Int) < n then ret1 (pushNil (pushAddr (pushAddr (pushAddr vm a) b) d))
      else subTail (pushAddr (pushAddr (pushAddr vm a) b) d) s n (if (m : Int) ≥ s.length then s.length else m) := by
    unfold strSub
    rw [e.lnum]
    simp only [Res.ok_bind, List.length_cons, List.length_nil, Nat.zero_add, Nat.reduceAdd] at l1 m1 n1 ⊢
    rw [if_neg (by simp), show lload vm 1 = .ok (pushAddr vm a) from l1, Res.ok_bind, l3, Res.ok_bind]
    simp only [objOf, hs.cstr, hs.len]
    rw [show lload (pushAddr vm a) 2 = .ok (pushAddr (pushAddr vm a) b) from m1, Res.ok_bind, m3, Res.ok_bind]
    simp only [objOf]
    rw [if_pos (show ((3 : Nat) : Int) = 3 by decide), show lload (pushAddr (pushAddr vm a) b) 3 = .ok (pushAddr (pushAddr (pushAddr vm a) b) d) from n1,
      Res.ok_bind, n3, Res.ok_bind]
    rfl
  rw [key]
  by_cases c : n < s.length
  · rw [if_neg (by omega)]
    by_cases c' : n ≤ m
    · obtain ⟨x, sid', x1, x2⟩ := ret_str e n2 hz ((s.take m).drop n)
      refine ⟨x, _, ?_, x2, ?_⟩
      · rw [if_neg (by omega)]
        unfold subTail
        rw [if_neg (by omega), ← x1]
        congr 2
        rw [← slice_take, Int.toNat_natCast]
        split
        · rw [List.take_of_length_le (by simp), List.take_of_length_le (by simp; omega)]
        · congr 1; omega
      · unfold Slice
        rw [if_pos ⟨c, c'⟩]
        exact ⟨_, rfl⟩
    · obtain ⟨x, x1, x2⟩ := ret_nil e n2
      refine ⟨x, _, ?_, x2, ?_⟩
      · rw [if_pos (by omega)]; exact x1
      · unfold Slice
        rw [if_neg (fun k => c' k.2)]
        rfl
  · obtain ⟨x, x1, x2⟩ := ret_nil e m2
    refine ⟨x, _, ?_, x2, ?_⟩
    · rw [if_pos (by omega)]; exact x1
    · unfold Slice
      rw [if_neg (fun k => c k.1)]
      rfl

/-- Loading the arguments puts them on the stack, the last on top. -/
theorem concatLoad_ok {vm : VM} {args : List Nat} (e : Entry vm args) (k : VM → Res VM) :
    ∀ (n i : Nat) (u : VM), Work vm u → i + n = args.length →
      (∀ a ∈ args, ∃ sid s, Holds vm.heap a (.atom (.str sid s))) →
      ∃ u', concatLoad n (i + 1) u k = k u' ∧ Work vm u' ∧ u'.stack = (args.drop i).reverse ++ u.stack ∧ u'.strings = u.strings := by
  intro n
  induction n with
  | zero =>
    intro i u w hl hs
    refine ⟨u, rfl, w, ?_, rfl⟩
    rw [List.drop_eq_nil_of_le (by omega)]
    rfl
  | succ n ih =>
    intro i u w hl hs
    obtain ⟨a, ha⟩ : ∃ a, args[i]? = some a := ⟨args[i], List.getElem?_eq_getElem (by omega)⟩
    obtain ⟨sid, s, hh⟩ := hs a (List.mem_of_getElem? ha)
    obtain ⟨l1, l2, l3⟩ := e.load w ha hh
    obtain ⟨u', k1, k2, k3, k4⟩ := ih (i + 1) (pushAddr u a) l2 (by omega) hs
    refine ⟨u', ?_, k2, ?_, k4⟩
    · unfold concatLoad
      rw [l1, Res.ok_bind, l3, Res.ok_bind]
      exact k1
    · rw [k3]
      have : args.drop i = a :: args.drop (i + 1) := by
        rw [List.drop_eq_getElem_cons (by omega)]
        congr 1
        rw [List.getElem?_eq_getElem (by omega)] at ha
        exact Option.some.inj ha
      rw [this]
      simp [pushAddr]

/-- The bytes of the arguments. -/
theorem concatJoin_ok {vm : VM} : ∀ (ss : List Bytes), (∀ s ∈ ss, Text s) →
    (∀ i s, ss.reverse[i]? = some s → ∃ sid, At vm i (.atom (.str sid s))) → concatJoin vm ss.length = .ok ss.flatten := by
  intro ss
  induction ss with
  | nil => intro _ _; rfl
  | cons s ss ih =>
    intro ht h
    obtain ⟨sid, hp⟩ := h ss.length s (by simp)
    obtain ⟨a, _, _, _, _, p5⟩ := hp.peekCell
    simp only [List.length_cons]
    unfold concatJoin
    rw [p5, Res.ok_bind]
    simp only [objOf]
    rw [ih (fun x hx => ht x (List.mem_cons_of_mem _ hx)), Res.ok_bind, (ht s (List.mem_cons_self ..)).cstr]
    · rfl
    · intro i x hx
      refine h i x ?_
      have hi : i < ss.length := by
        have := List.getElem?_eq_some_iff.mp hx
        simpa using this.1
      rw [List.reverse_cons, List.getElem?_append_left (by simpa using hi)]
      exact hx

theorem flatten_text (ss : List Bytes) (h : ∀ s ∈ ss, Text s) : (0 : UInt8) ∉ ss.flatten := by
  intro h0
  obtain ⟨s, h1, h2⟩ := List.mem_flatten.mp h0
  exact (h s h1).1 h2

/-- **C46**, concat: two or more strings are joined in the order of the arguments. -/
theorem C46_concat (ss : List Bytes) (h2 : 2 ≤ ss.length) (ht : ∀ s ∈ ss, Text s) (hl : ss.flatten.length < 2147483648) :
    Computes strConcat (ss.map .str) (.str ss.flatten) := by
  intro vm args e hz hr
  have hlen : args.length = ss.length := by simpa using hr.length_eq
  have hall : ∀ (i a : Nat), args[i]? = some a → ∃ sid s, ss[i]? = some s ∧ Holds vm.heap a (.atom (.str sid s)) := by
    intro i a ha
    have hi : i < args.length := (List.getElem?_eq_some_iff.mp ha).1
    have hg := hr.get hi (by simpa using hlen ▸ hi)
    simp only [List.get_eq_getElem, List.getElem_map] at hg
    obtain ⟨sid, hh⟩ := reads_str hg
    refine ⟨sid, ss[i]'(hlen ▸ hi), List.getElem?_eq_getElem _, ?_⟩
    rw [List.getElem?_eq_getElem hi] at ha
    rwa [← Option.some.inj ha]
  obtain ⟨u, k1, k2, k3, k4⟩ := concatLoad_ok e (fun u => do
    let s ← concatJoin u args.length
    if s.length + 1 ≥ 4294967296 then .ub
    else do
      let u ← pushStr u s
      ret1 u) args.length 0 vm (Work.refl e.inv) (by omega) (fun a ha => by
        obtain ⟨i, hi⟩ := List.mem_iff_getElem?.mp ha
        obtain ⟨sid, s, _, hh⟩ := hall i a hi
        exact ⟨sid, s, hh⟩)
  obtain ⟨x, sid, x1, x2⟩ := ret_str e k2 (k4 ▸ hz) ss.flatten
  refine ⟨x, _, ?_, x2, _, rfl⟩
  have hj : concatJoin u args.length = .ok ss.flatten := by
    rw [hlen]
    refine concatJoin_ok ss ht fun i s hi => ?_
    have hi' : i < ss.length := by simpa using (List.getElem?_eq_some_iff.mp hi).1
    obtain ⟨a, ha⟩ : ∃ a, args.reverse[i]? = some a := ⟨_, List.getElem?_eq_getElem (by simp; omega)⟩
    rw [List.getElem?_reverse hi'] at hi
    have ha' := ha
    rw [List.getElem?_reverse (by omega), hlen] at ha'
    obtain ⟨sid, s', q1, q2⟩ := hall _ _ ha'
    rw [hi] at q1
    cases q1
    refine ⟨sid, a, ?_, k2.heap _ _ q2⟩
    rw [k3, List.drop_zero, List.getElem?_append_left (by simp; omega)]
    exact ha
  unfold strConcat
  rw [e.lnum, Res.ok_bind, if_neg (by omega), Int.toNat_natCast]
  refine k1.trans ?_
  simp only [hj, Res.ok_bind]
  rw [if_neg (by omega)]
  exact x1

/-- **C46**: the length of a concatenation is the sum of the lengths. -/
theorem C46_length_concat (s t : Bytes) (hs : Text s) (ht : Text t) (hl : s.length + t.length < 2147483648) :
    ∃ r, Computes strConcat [.str s, .str t] (.str r) ∧ Computes strLength [.str r] (.int (s.length + t.length)) := by
  have h := C46_concat [s, t] (by simp) (by simp [hs, ht]) (by simpa using hl)
  have h' := C46_length (s ++ t) ⟨by simp only [List.mem_append, not_or]; exact ⟨hs.1, ht.1⟩, by simpa using hl⟩
  refine ⟨s ++ t, by simpa using h, ?_⟩
  simpa using h'

/-- **C46**: the whole string is its part from 0 up to its length. -/
theorem C46_sub_whole (s : Bytes) (hs : Text s) (h0 : s ≠ []) :
    ∃ n : Nat, Computes strLength [.str s] (.int n) ∧ Computes strSub [.str s, .int 0, .int n] (.str s) := by
  refine ⟨s.length, C46_length s hs, ?_⟩
  have h := C46_sub_range s hs 0 s.length
  unfold Slice at h
  rw [if_pos ⟨List.length_pos_iff.mpr h0, by omega⟩] at h
  simpa using h

/-- The empty string is the exception: its part from 0 on is nil. -/
theorem C46_sub_empty (m : Nat) : Computes strSub [.str [], .int 0, .int m] .nil := by
  have h := C46_sub_range [] ⟨by simp, by simp⟩ 0 m
  unfold Slice at h
  rwa [if_neg (by simp)] at h

/-- **C46**: a string is its part up to `n` followed by its part from `n` on. -/
theorem C46_sub_split (s : Bytes) (hs : Text s) (n : Nat) (h1 : n < s.length) :
    ∃ p q, Computes strSub [.str s, .int 0, .int n] (.str p) ∧ Computes strSub [.str s, .int n] (.str q) ∧
      Computes strConcat [.str p, .str q] (.str s) := by
  have h := C46_sub_range s hs 0 n
  have h' := C46_sub_from s hs n
  unfold Slice at h h'
  rw [if_pos ⟨by omega, by omega⟩] at h
  rw [if_pos ⟨h1, by omega⟩, List.take_length] at h'
  refine ⟨s.take n, s.drop n, by simpa using h, h', ?_⟩
  have k := C46_concat [s.take n, s.drop n] (by simp) (by
    simp only [List.mem_cons, List.not_mem_nil, or_false]
    rintro x (rfl | rfl)
    · exact ⟨fun h => hs.1 (List.mem_of_mem_take h), by have := hs.2; simp; omega⟩
    · exact ⟨fun h => hs.1 (List.mem_of_mem_drop h), by have := hs.2; simp; omega⟩) (by simpa using hs.2)
  simpa using k

/-- **C46**, concat is associative. -/
theorem C46_concat_assoc (s t u : Bytes) (hs : Text s) (ht : Text t) (hu : Text u) (hl : s.length + t.length + u.length < 2147483648) :
    ∃ st tu r, Computes strConcat [.str s, .str t] (.str st) ∧ Computes strConcat [.str t, .str u] (.str tu) ∧
      Computes strConcat [.str st, .str u] (.str r) ∧ Computes strConcat [.str s, .str tu] (.str r) ∧ Computes strConcat [.str s, .str t, .str u] (.str r) := by
  have app : ∀ {x y : Bytes}, Text x → Text y → x.length + y.length < 2147483648 → Text (x ++ y) := fun hx hy hl =>
    ⟨by simp only [List.mem_append, not_or]; exact ⟨hx.1, hy.1⟩, by simpa using hl⟩
  have two : ∀ {x y : Bytes}, Text x → Text y → x.length + y.length < 2147483648 → Computes strConcat [.str x, .str y] (.str (x ++ y)) := fun {x y} hx hy hl => by
    simpa using C46_concat [x, y] (by simp) (by simp [hx, hy]) (by simpa using hl)
  refine ⟨s ++ t, t ++ u, s ++ t ++ u, two hs ht (by omega), two ht hu (by omega), two (app hs ht (by omega)) hu (by simpa using hl), ?_, ?_⟩
  · have := two hs (app ht hu (by omega)) (by simp; omega)
    rwa [← List.append_assoc] at this
  · have := C46_concat [s, t, u] (by simp) (by simp [hs, ht, hu]) (by simp; omega)
    simpa using this

/-- **C46**, errors: `length` needs one argument, which is a string. -/
theorem C46_length_errors (ds : List Data) : (ds.length ≠ 1 → Fails strLength ds .lnum) ∧
    (∀ d, ds = [d] → (∀ s, d ≠ .str s) → Fails strLength ds .type) := by
  constructor
  · intro hn vm args e hr
    refine ⟨setErr vm .lnum, ?_, rfl, rfl⟩
    unfold strLength
    rw [e.lnum, Res.ok_bind, if_pos (by rw [hr.length_eq]; exact_mod_cast hn)]
    rfl
  · rintro d rfl hd vm args e hr
    obtain ⟨a, rfl, c, h1, h2⟩ := reads_one hr
    obtain ⟨l1, l2, l3⟩ := e.load (Work.refl e.inv) (k := 0) rfl h1
    refine ⟨setErr (pushAddr vm a) .type, ?_, rfl, rfl⟩
    unfold strLength
    rw [e.lnum, Res.ok_bind, if_neg (by simp), show lload vm 1 = .ok (pushAddr vm a) from l1, Res.ok_bind, l3, Res.ok_bind]
    cases d with
    | str s => exact absurd rfl (hd s)
    | nil => cases h2; rfl
    | int v => cases h2; rfl
    | flt f => cases h2; rfl

/-- **C46 fails** for a negative start: the code reads before the string. -/
theorem C46_negative_start (s : Bytes) (hs : Text s) (n : Int) (hn : n < 0) : Undefined strSub [.str s, .int n] := by
  intro vm args e hr
  obtain ⟨a, b, rfl, h, h'⟩ := reads_two hr
  obtain ⟨sid, h⟩ := reads_str h
  replace h' := reads_int h'
  obtain ⟨l1, l2, l3⟩ := e.load (Work.refl e.inv) (k := 0) rfl h
  obtain ⟨m1, m2, m3⟩ := e.load l2 (k := 1) rfl h'
  unfold strSub
  rw [e.lnum]
  simp only [Res.ok_bind, List.length_cons, List.length_nil, Nat.zero_add, Nat.reduceAdd] at l1 m1 ⊢
  rw [if_neg (by simp), show lload vm 1 = .ok (pushAddr vm a) from l1, Res.ok_bind, l3, Res.ok_bind]
  simp only [objOf, hs.cstr, hs.len]
  rw [show lload (pushAddr vm a) 2 = .ok (pushAddr (pushAddr vm a) b) from m1, Res.ok_bind, m3, Res.ok_bind]
  simp only [objOf]
  rw [if_neg (by omega), if_neg (by decide)]
  unfold subTail
  rw [if_pos hn]

/-! ### Numbers as text -/

theorem number_append (s : Bytes) (c : UInt8) : number (s ++ [c]) = 10 * number s + (c.toNat - 48) := by
  unfold number
  rw [List.foldl_append]
  rfl

theorem digits_step (n : Nat) : Obj.digits n = if n < 10 then [byte (48 + n)] else Obj.digits (n / 10) ++ [byte (48 + n % 10)] := by
  have hc : ∀ d, d < 10 → byte (Nat.digitChar d).toNat = byte (48 + d) := by decide
  unfold Obj.digits
  split
  · rename_i h
    rw [Nat.toDigits_of_lt_base h]
    simp [hc n h]
  · rename_i h
    rw [Nat.toDigits_of_base_le (by decide) (by omega)]
    simp [hc (n % 10) (Nat.mod_lt _ (by decide))]

theorem digit_byte {d : Nat} (h : d < 10) : (byte (48 + d)).toNat - 48 = d ∧ isDigit (byte (48 + d)) = true ∧ byte (48 + d) ≠ 0 := by
  revert d; decide

theorem digits_ok (n : Nat) : number (Obj.digits n) = n ∧ (∀ c ∈ Obj.digits n, isDigit c = true) ∧ Obj.digits n ≠ [] := by
  induction n using Nat.strongRecOn with
  | _ n ih =>
    rw [digits_step]
    split
    · rename_i h
      obtain ⟨h1, h2, _⟩ := digit_byte h
      refine ⟨?_, by simpa using h2, by simp⟩
      show 10 * 0 + ((byte (48 + n)).toNat - 48) = n
      omega
    · rename_i h
      obtain ⟨k1, k2, k3⟩ := ih (n / 10) (by omega)
      obtain ⟨h1, h2, _⟩ := digit_byte (Nat.mod_lt n (show 0 < 10 by decide))
      refine ⟨?_, ?_, by simp⟩
      · rw [number_append, k1, h1]; omega
      · intro c hc
        rw [List.mem_append] at hc
        rcases hc with hc | hc
        · exact k2 c hc
        · simp only [List.mem_singleton] at hc; rw [hc]; exact h2

theorem digit_not {c : UInt8} (h : isDigit c = true) : c ≠ 0 ∧ isSpace c = false ∧ c ≠ 45 ∧ c ≠ 43 := by
  have : ∀ c : UInt8, isDigit c = true → c ≠ 0 ∧ isSpace c = false ∧ c ≠ 45 ∧ c ≠ 43 := by
    intro c h
    unfold isDigit at h
    simp only [Bool.and_eq_true, decide_eq_true_eq, UInt8.le_iff_toNat_le] at h
    have h1 : (48 : UInt8).toNat = 48 := rfl
    have h2 : (57 : UInt8).toNat = 57 := rfl
    rw [h1, h2] at h
    have ne : ∀ k : UInt8, k.toNat < 48 → c ≠ k := fun k hk e => by rw [e] at h; omega
    refine ⟨ne _ (by decide), ?_, ne _ (by decide), ne _ (by decide)⟩
    unfold isSpace
    simp only [Bool.or_eq_false_iff, Bool.and_eq_false_iff, decide_eq_false_iff_not, UInt8.le_iff_toNat_le]
    refine ⟨ne _ (by decide), Or.inr ?_⟩
    have h3 : (13 : UInt8).toNat = 13 := rfl
    omega
  exact this c h

theorem strtol_digits (n : Nat) : strtol (Obj.digits n) = some (n : Int) := by
  obtain ⟨k1, k2, k3⟩ := digits_ok n
  obtain ⟨c, l, hd⟩ := List.exists_cons_of_ne_nil k3
  obtain ⟨_, q2, q3, q4⟩ := digit_not (k2 c (by rw [hd]; simp))
  have e1 : (Obj.digits n).dropWhile isSpace = Obj.digits n := by rw [hd]; simp [q2]
  have e2 : (Obj.digits n).takeWhile isDigit = Obj.digits n := takeWhile_all k2
  unfold strtol
  simp only [e1]
  have h0 : (Obj.digits n).head? = some c := by rw [hd]; rfl
  rw [h0]
  simp only [Option.some.injEq, q3, q4, or_self, if_false, e2, k3, k1]

theorem strtol_fmt (v : Int) : strtol (Obj.fmtD v) = some v := by
  unfold Obj.fmtD
  split
  · rename_i h
    obtain ⟨k1, k2, k3⟩ := digits_ok v.natAbs
    have e2 : (Obj.digits v.natAbs).takeWhile isDigit = Obj.digits v.natAbs := takeWhile_all k2
    unfold strtol
    have hsp : isSpace 45 = false := by decide
    simp only [List.dropWhile_cons, hsp, Bool.false_eq_true, if_false, List.head?_cons, true_or, if_true, List.tail_cons, e2, k3, k1]
    congr 1
    omega
  · rename_i h
    rw [strtol_digits]
    congr 1
    omega

theorem fmt_text {v : Int} : (0 : UInt8) ∉ Obj.fmtD v := by
  have hz : ∀ n, (0 : UInt8) ∉ Obj.digits n := fun n h => (digit_not ((digits_ok n).2.1 0 h)).1 rfl
  unfold Obj.fmtD
  split
  · simp [hz]
  · exact hz _

theorem strtol32_id {v : Int} (h : I32 v) : strtol32 v = (v, false) := by
  have := h.1
  have := h.2
  unfold strtol32 intOfU32
  rw [if_neg (by omega), if_neg (by omega)]
  congr 1
  split <;> omega

/-- The text of an integer: a minus sign for negative numbers, then decimal digits without a leading zero that denote its absolute
value. -/
def TextOf (v : Int) (s : Bytes) : Prop :=
  ∃ d, s = (if v < 0 then 45 :: d else d) ∧ (∀ c ∈ d, 48 ≤ c ∧ c ≤ 57) ∧ number d = v.natAbs ∧ d ≠ [] ∧ (d.head? = some 48 → d = [48])

theorem digits_head (n : Nat) (h : 0 < n) : (Obj.digits n).head? ≠ some 48 := by
  induction n using Nat.strongRecOn with
  | _ n ih =>
    rw [digits_step]
    split
    · rename_i hn
      have : ∀ d, d < 10 → 0 < d → byte (48 + d) ≠ 48 := by decide
      simpa using this n hn h
    · rename_i hn
      have := ih (n / 10) (by omega) (by omega)
      rw [List.head?_append_of_ne_nil _ (digits_ok _).2.2]
      exact this

theorem fmt_textOf (v : Int) : TextOf v (Obj.fmtD v) := by
  refine ⟨Obj.digits v.natAbs, rfl, ?_, (digits_ok _).1, (digits_ok _).2.2, ?_⟩
  · intro c hc
    have := (digits_ok _).2.1 c hc
    unfold isDigit at this
    simpa using this
  · intro hh
    rcases Nat.eq_zero_or_pos v.natAbs with h | h
    · rw [h]; decide
    · exact absurd hh (digits_head _ h)

theorem tostring_computes (v : Int) : Computes strToString [.int v] (.str (Obj.fmtD v)) := by
  intro vm args e hz hr
  obtain ⟨a, rfl, h⟩ := reads_one hr
  replace h := reads_int h
  obtain ⟨l1, l2, l3⟩ := e.load (Work.refl e.inv) (k := 0) rfl h
  obtain ⟨x, sid, x1, x2⟩ := ret_str e l2 hz (Obj.fmtD v)
  refine ⟨x, _, ?_, x2, _, rfl⟩
  unfold strToString
  rw [e.lnum, Res.ok_bind, if_neg (by simp), show lload vm 1 = .ok (pushAddr vm a) from l1, Res.ok_bind, l3, Res.ok_bind]
  exact x1

/-- **C58**: `tostring` of an integer is its decimal text. -/
theorem C58_tostring (v : Int) : ∃ s, TextOf v s ∧ Computes strToString [.int v] (.str s) := ⟨_, fmt_textOf v, tostring_computes v⟩

/-- A result of `toint`. -/
theorem toint_computes {s : Bytes} (hs : (0 : UInt8) ∉ s) {v r : Int} (hv : strtol s = some v) (hr : (strtol32 v).1 = r) (hn : ¬ ((strtol32 v).2 = true ∧ (strtol32 v).1 = 0)) (hi : I32 r) :
    Computes strToInt [.str s] (.int r) := by
  intro vm args e hz hrd
  obtain ⟨a, rfl, h⟩ := reads_one hrd
  obtain ⟨sid, h⟩ := reads_str h
  obtain ⟨l1, l2, l3⟩ := e.load (Work.refl e.inv) (k := 0) rfl h
  obtain ⟨x, x1, x2⟩ := ret_int e l2 hi
  refine ⟨x, _, ?_, x2, rfl⟩
  have hc : cstr s = s := cstr_eq hs
  unfold strToInt
  rw [e.lnum, Res.ok_bind, if_neg (by simp), show lload vm 1 = .ok (pushAddr vm a) from l1, Res.ok_bind, l3, Res.ok_bind]
  simp only [objOf, hc, hv]
  rw [if_neg hn, hr]
  exact x1

/-- **C58**: `toint` reads back what `tostring` has written, for every integer of the machine. -/
theorem C58_roundtrip (v : Int) (hv : I32 v) :
    ∃ s, TextOf v s ∧ Computes strToString [.int v] (.str s) ∧ Computes strToInt [.str s] (.int v) :=
  ⟨Obj.fmtD v, fmt_textOf v, tostring_computes v,
    toint_computes fmt_text (strtol_fmt v) (by rw [strtol32_id hv]) (by rw [strtol32_id hv]; simp) hv⟩

/-- **C58 fails** outside the range of integers: text of a too large number is not refused but wraps around, and text beyond the
range of `long` gives −1. -/
theorem C58_wraps : Computes strToInt [.str (Obj.fmtD 4294967301)] (.int 5) ∧ Computes strToInt [.str (Obj.fmtD 9223372036854775808)] (.int (-1)) :=
  ⟨toint_computes fmt_text (strtol_fmt _) (by decide) (by decide) (by unfold I32; decide),
   toint_computes fmt_text (strtol_fmt _) (by decide) (by decide) (by unfold I32; decide)⟩

/-- **C58 fails** for other objects than numbers: `tostring(nil)` pushes nil, continues, and reads a float that is not there. -/
theorem C58_tostring_nil : Undefined strToString [.nil] := by
  intro vm args e hr
  obtain ⟨a, rfl, c, h1, rfl⟩ := reads_one hr
  obtain ⟨l1, l2, l3⟩ := e.load (Work.refl e.inv) (k := 0) rfl h1
  unfold strToString
  rw [e.lnum, Res.ok_bind, if_neg (by simp), show lload vm 1 = .ok (pushAddr vm a) from l1, Res.ok_bind, l3, Res.ok_bind]
  rfl

/-! ### Concrete cases -/

/-- The C functions of the samples. -/
def stringFuns : CFuns := fun i vm =>
  match i with
  | 0 => strLength vm
  | 1 => strSub vm
  | 2 => strConcat vm
  | 3 => strToString vm
  | 4 => strToInt vm
  | _ => .ub

/-- A program that calls C function `k` with what the arguments push: nil as self, the closure, the arguments and their number. -/
def callProgram (k : UInt8) (args : List UInt8) (n : UInt8) : List UInt8 :=
  [2, 0, 97, 98, 0, 99, 0] ++ [2, 39, k, 0, 0, 0] ++ args ++ [36, n, 0, 0, 0, 33, 1]

/-- What it leaves on the stack. -/
def callResult (k : UInt8) (args : List UInt8) (n : UInt8) : Res (Option Obj × State) := do
  let vm ← load host (callProgram k args n) VM.new
  let vm := { vm with nfuns := 5 }
  let vm ← VM.run host stringFuns 20 vm
  match vm.stack with
  | [] => pure (none, vm.state)
  | a :: _ => do
    let m ← deref vm.heap a
    pure (some (objOf a m.cell), vm.state)

/-- `length("ab")`, `concat("ab", "c")`, `sub("ab", 1)` (registered again as a third string), `sub("ab", 0, 2)`, `tostring(7)`. -/
example : callResult 0 [37, 0, 0, 0, 0] 1 = .ok (some (.int 2), .done) ∧
    callResult 2 [37, 0, 0, 0, 0, 37, 1, 0, 0, 0] 2 = .ok (some (.str 2 [97, 98, 99]), .done) ∧
    callResult 1 [37, 0, 0, 0, 0, 36, 1, 0, 0, 0] 2 = .ok (some (.str 2 [98]), .done) ∧
    callResult 1 [37, 0, 0, 0, 0, 36, 0, 0, 0, 0, 36, 2, 0, 0, 0] 3 = .ok (some (.str 0 [97, 98]), .done) ∧
    callResult 3 [36, 7, 0, 0, 0] 1 = .ok (some (.str 2 [55]), .done) := by decide +kernel

/-- The laws have content: contents with these properties. -/
example : Text [97, 98] ∧ Slice [97, 98, 99] 1 2 = .str [98] ∧ Slice [97, 98, 99] 1 9 = .str [98, 99] ∧ Slice [97] 1 1 = .nil ∧ Slice [97, 98, 99] 2 1 = .nil ∧
    TextOf (-12) [45, 49, 50] ∧ strtol [32, 45, 49, 50, 97] = some (-12) ∧ strtol [97] = none := by
  refine ⟨⟨by decide, by decide⟩, by decide, by decide, by decide, by decide, ⟨[49, 50], by decide, by decide, by decide, by decide, by decide⟩, by decide, by decide⟩

/-- A machine that has entered a C function with the argument 7. -/
def entered : VM := enter { pushInt (pushNil (pushNil VM.new)) 7 with state := .ready } 1 [0] false

example : ∃ a, Entry entered [a] ∧ Reads entered [a] [.int 7] := by
  have i1 := VM.new_inv.push (c := .atom .nil) trivial
  have i2 := i1.push (c := .atom .nil) trivial
  have i3 := i2.push (c := .atom (.int 7)) (by show I32 7; unfold I32; decide)
  have i4 : VInv { pushInt (pushNil (pushNil VM.new)) 7 with state := .ready } := { i3 with depth := fun _ => i3.depth (by decide) }
  have e := entry_of_call (n := 1) (actrec := [0]) (sw := false) i4 rfl (by
    intro a ha
    simp only [List.mem_singleton] at ha
    subst ha
    exact ⟨.atom .nil, ⟨_, rfl, rfl⟩⟩) rfl
  refine ⟨_, e, .cons ⟨_, ⟨_, rfl, rfl⟩, rfl⟩ .nil⟩

end Buzz.Props
