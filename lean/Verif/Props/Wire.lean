import Verif.Value

/-
C14-C18: the wire format.  `pre` and `post` are arbitrary surrounding bytes of the buffer.
-/
namespace Buzz.Props

open Buzz.F32 Buzz.Msg Buzz.Value

/-! ## C14 -/

/-- Network order: the bytes of `d`, most significant first. -/
def netOrder : Nat → Nat → List Nat
  | 0, _ => []
  | n + 1, d => d / 256 ^ n % 256 :: netOrder n d

/-- **C14** 8-bit integers. -/
theorem C14_u8 (d : Nat) (hd : d < 256) (pre post : Bytes) :
    (ser8 d).map (·.toNat) = netOrder 1 d ∧
    deser8 (pre ++ ser8 d ++ post) pre.length = .ok (some (d, pre.length + 1)) := by
  refine ⟨?_, deser8_ser d hd pre post⟩
  simp [ser8, netOrder]

/-- **C14** 16-bit integers (little-endian host). -/
theorem C14_u16 (d : Nat) (hd : d < 65536) (pre post : Bytes) :
    (ser16 .little d).map (·.toNat) = netOrder 2 d ∧
    deser16 .little (pre ++ ser16 .little d ++ post) pre.length = .ok (some (d, pre.length + 2)) := by
  refine ⟨?_, deser16_ser d hd pre post⟩
  rw [ser16_eq _ _ hd]
  simp only [List.map_cons, List.map_nil, netOrder]
  rw [byte_toNat _ (by omega), byte_toNat _ (by omega)]
  have : d / 256 = d / 256 ^ 1 % 256 := by omega
  rw [← this]
  simp

/-- **C14** 32-bit integers (little-endian host). -/
theorem C14_u32 (d : Nat) (hd : d < 4294967296) (pre post : Bytes) :
    (ser32 .little d).map (·.toNat) = netOrder 4 d ∧
    deser32 .little (pre ++ ser32 .little d ++ post) pre.length = .ok (some (d, pre.length + 4)) := by
  refine ⟨?_, deser32_ser d hd pre post⟩
  rw [ser32_eq _ _ hd]
  simp only [List.map_cons, List.map_nil, netOrder]
  rw [byte_toNat _ (by omega), byte_toNat _ (by omega), byte_toNat _ (by omega), byte_toNat _ (by omega)]
  norm_num
  omega

/-- **C14** truncated buffers give -1, without reading outside. -/
theorem C14_truncated (h : Endian) (buf : Bytes) (pos : Nat) :
    (buf.length < pos + 1 → deser8 buf pos = .ok none) ∧
    (buf.length < pos + 2 → deser16 h buf pos = .ok none) ∧
    (buf.length < pos + 4 → deser32 h buf pos = .ok none) := by
  refine ⟨fun h => ?_, fun h => ?_, fun h => ?_⟩
  · simp [deser8, h]
  · simp [deser16, h]
  · simp [deser32, h]

/-- The format is only usable on little-endian hosts: on a big-endian one the reader assembles the bytes in
the wrong order, so even its own messages are not read back. -/
theorem C14_big_endian_host_broken :
    deser16 .big (ser16 .big 1) 0 = .ok (some (256, 2)) ∧
    deser32 .big (ser32 .big 1) 0 = .ok (some (16777216, 4)) := ⟨rfl, rfl⟩

example : deser16 .little ([9] ++ ser16 .little 51966 ++ [7]) 1 = .ok (some (51966, 3)) := rfl

/-! ## C15 -/

/-- **C15** strings shorter than 65536 bytes survive. -/
theorem C15_string_roundtrip (s : Bytes) (hl : s.length < 65536) (hz : ∀ b ∈ s, b ≠ 0) (pre post : Bytes) :
    ∃ block, deserString .little (pre ++ serString .little s ++ post) pre.length =
      .ok (some (block, pre.length + 2 + s.length)) ∧ cstr block = s := by
  refine ⟨s, ?_, cstr_eq hz⟩
  rw [deserString_ser s hl]
  simp [serString, ser16_length, Nat.add_assoc]

/-- **C15** longer strings are never read back. -/
theorem C15_long_string_lost (s : Bytes) (hl : 65536 ≤ s.length) (pre post : Bytes) :
    ∀ block p, deserString .little (pre ++ serString .little s ++ post) pre.length = .ok (some (block, p)) →
      cstr block ≠ s := by
  intro block p h e
  have hc : (cstr block).length ≤ block.length := by
    unfold cstr; exact (List.takeWhile_sublist _).length_le
  rcases deserString_total .little (pre ++ serString .little s ++ post) pre.length with h' | ⟨b, hb, _, h'⟩
  · rw [h'] at h; simp at h
  · rw [h'] at h
    simp only [Res.ok.injEq, Option.some.injEq, Prod.mk.injEq] at h
    rw [h.1] at hb
    rw [e] at hc
    omega

example : ∃ block, deserString .little (serString .little [104, 105]) 0 = .ok (some (block, 4)) ∧
    cstr block = [104, 105] :=
  C15_string_roundtrip [104, 105] (by simp) (by decide) [] []
example : 65536 ≤ (List.replicate 65536 (97 : UInt8)).length := by rw [List.length_replicate]

/-! ## C16 -/

/-- **C16** every finite binary32 number is read back exactly. -/
theorem C16_float_exact (q : ℚ) (h : IsF32 q) (pre post : Bytes) :
    ∃ bs, serFloat .little (.fin q) = .ok bs ∧
      deserFloat .little (pre ++ bs ++ post) pre.length = .ok (some (.fin q, pre.length + bs.length)) := by
  obtain ⟨bs, h1, h2, h3⟩ := deserFloat_ser h pre post
  exact ⟨bs, h1, by rw [h2]; exact h3⟩

/-- Infinities and NaN cannot be sent: the cast to `int32_t` is undefined. -/
theorem C16_nonfinite_undefined (n : Bool) : serFloat .little (.inf n) = .ub ∧ serFloat .little .nan = .ub :=
  ⟨rfl, rfl⟩

/-- The smallest subnormal, the largest finite number and one third are covered. -/
example : IsF32 (2 ^ (-149 : ℤ)) := ⟨1, -149, by norm_num, by norm_num, by norm_num, by norm_num⟩
example : IsF32 (-(16777215 * 2 ^ (104 : ℤ))) := ⟨-16777215, 104, by norm_num, by norm_num, by norm_num, by norm_num⟩
example : IsF32 (11184811 / 33554432) := ⟨11184811, -25, by norm_num, by norm_num, by norm_num, by norm_num⟩

/-! ## C17 -/

/-- **C17** every supported value is read back, for whatever key equality the receiver's dictionaries use, as long
as the keys of each table are distinct under it. -/
theorem C17_value_roundtrip (keq : Val → Val → Bool) (v : Val) (hv : WireOk keq v) (pre post : Bytes) :
    ∃ bs, ser v = .ok bs ∧
      deserialize keq (pre ++ bs ++ post) pre.length = .ok (some (v, pre.length + bs.length)) := by
  obtain ⟨bs, h1, h2, h3⟩ := deser_ser keq v hv
  refine ⟨bs, h1, h3 _ ?_ pre post⟩
  simp only [List.length_append]; omega

/-- The scalar a key is compared as. -/
def keyObj : Val → Obj
  | .int v => .int v
  | .flt f => .flt f
  | .str s => .str 0 s
  | .nil => .nil
  | .table _ => .tab 0
  | .clo .. => .clo 0
  | .user p => .user p

/-- `buzzobj_table_keycmp(a, b) == 0`. -/
def realKeq (sc : Bytes → Bytes → Int) (a b : Val) : Bool := decide (Obj.cmp sc (keyObj a) (keyObj b) = .ok 0)

theorem cmpI_zero (a b : Int) : Obj.cmpI a b = 0 ↔ a = b := by
  unfold Obj.cmpI
  split
  · constructor <;> intro <;> omega
  · split
    · constructor <;> intro <;> omega
    · constructor <;> intro <;> omega

/-- With Buzz's own key comparison: integer keys that differ, and string keys that differ, are distinct. -/
theorem C17_distinct_keys {sc : Bytes → Bytes → Int} (hsc : Obj.StrcmpLaw sc) :
    (∀ a b : Int, a ≠ b → realKeq sc (.int a) (.int b) = false) ∧
    (∀ a b : Bytes, Obj.CStr a → Obj.CStr b → a ≠ b → realKeq sc (.str a) (.str b) = false) := by
  constructor
  · intro a b h
    simp only [realKeq, keyObj, Obj.cmp, Res.ok.injEq, cmpI_zero]
    simpa using h
  · intro a b ha hb h
    simp only [realKeq, keyObj, Obj.cmp, Res.ok.injEq, hsc.zero a b ha hb]
    simpa using h

theorem put_length (keq : Val → Val → Bool) (k v : Val) (l : List (Val × Val)) : (put keq k v l).length ≤ l.length + 1 := by
  unfold put
  have := (List.eraseP_sublist (p := fun e : Val × Val => keq k e.1) (l := l)).length_le
  simp; omega

theorem loop_table (keq : Val → Val → Bool) (dv : Nat → Except DErr (Option (Val × Nat))) :
    ∀ (n : Nat) (acc : List (Val × Val)) (p : Nat) (v : Val) (q : Nat),
      loop keq dv n acc p = .ok (some (v, q)) → ∃ es, v = .table es ∧ es.toList.length ≤ acc.length + n := by
  intro n
  induction n with
  | zero =>
    intro acc p v q h
    simp only [loop, Except.ok.injEq, Option.some.injEq, Prod.mk.injEq] at h
    exact ⟨_, h.1.symm, by simp [Ents.toList_ofList]⟩
  | succ n ih =>
    intro acc p v q h
    simp only [loop] at h
    split at h
    · simp at h
    · simp at h
    · split at h
      · simp at h
      · simp at h
      · split at h
        · simp at h
        · obtain ⟨es, e1, e2⟩ := ih _ _ _ _ h
          exact ⟨es, e1, Nat.le_trans e2 (Nat.le_trans (Nat.add_le_add_right (put_length keq _ _ acc) n) (by omega))⟩

/-- **C17** (limit) no buffer whatsoever deserialises to a table with more than 255 entries, so a larger table
is never read back. -/
theorem C17_large_table_lost (keq : Val → Val → Bool) (buf : Bytes) (pos : Nat) (es : Ents) (p : Nat)
    (h : deserialize keq buf pos = .ok (some (.table es, p))) : es.toList.length ≤ 255 := by
  unfold deserialize at h
  simp only [deser] at h
  split at h
  · simp at h
  · simp at h
  · rename_i t p1 _
    split at h
    · simp at h
    · revert h; cases lift DErr.oob (deser32 .little buf p1) with
      | error e => simp [mapVal]
      | ok o => cases o <;> simp [mapVal]
    · revert h; cases lift DErr.absMin (deserFloat .little buf p1) with
      | error e => simp [mapVal]
      | ok o => cases o <;> simp [mapVal]
    · revert h; cases lift DErr.oob (deserString .little buf p1) with
      | error e => simp [mapVal]
      | ok o => cases o <;> simp [mapVal]
    · rcases deser8_total buf p1 with ⟨_, e⟩ | ⟨_, n, hn, e⟩
      · rw [e] at h; simp [lift] at h
      · rw [e] at h
        simp only [lift] at h
        obtain ⟨es', e1, e2⟩ := loop_table _ _ _ _ _ _ _ h
        cases e1
        simp at e2; omega
    · split at h
      · simp at h
      · simp at h
      · rename_i nat p2 _
        revert h; cases lift DErr.oob (deser32 .little buf p2) with
        | error e => simp [mapVal]
        | ok o => cases o <;> simp [mapVal]
    · simp at h
    · simp at h

/-- A closure with captured variables loses its body: only the type byte is written, and the receiver takes the
following bytes of the message for the closure. -/
theorem C17_nested_closure_lost : ser (.clo 1 7 2) = .ok [5] ∧
    deserialize (fun _ _ => false) ([5] ++ ser8 3 ++ ser32 .little 9) 0 = .ok (some (.clo 3 9 1, 6)) := ⟨rfl, rfl⟩

/-- Satisfiable and non-trivial: a table with a string key holding a table with an integer key, a float and a closure. -/
example : WireOk (realKeq Obj.strcmpDiff)
    (.table (.cons (.str [120]) (.table (.cons (.int (-3)) .nil .nil))
      (.cons (.str [121]) (.flt (.fin (3 / 2))) (.cons (.str [122]) (.clo 1 42 1) .nil)))) := by
  have h := (C17_distinct_keys Obj.strcmpDiff_law).2
  have c : ∀ b : UInt8, b ≠ 0 → Obj.CStr [b] := by
    intro b hb x hx
    simp only [List.mem_singleton] at hx
    subst hx; exact hb
  have hx := c 120 (by decide)
  have hy := c 121 (by decide)
  have hz := c 122 (by decide)
  have hF : IsF32 (3 / 2) := ⟨3, -1, by norm_num, by norm_num, by norm_num, by norm_num⟩
  simp only [WireOk, EntsOk, KeyOk, Ents.toList]
  refine ⟨by simp, ?_, ?_⟩
  · simp only [List.pairwise_cons, List.mem_cons, List.not_mem_nil, or_false, forall_eq_or_imp, forall_eq]
    refine ⟨⟨h _ _ hy hx (by decide), h _ _ hz hx (by decide)⟩, h _ _ hz hy (by decide), by simp, by simp⟩
  · refine ⟨⟨by simp, hx⟩, trivial, ⟨by simp, by simp, by omega, trivial, trivial, trivial⟩, ⟨by simp, hy⟩, trivial, hF,
      ⟨by simp, hz⟩, trivial, ⟨by omega, by omega, trivial⟩, trivial⟩

/-! ## C18 -/

/-- **C18** on any bytes: reading a value stays inside the buffer, terminates with recursion no deeper than the buffer is
long, and returns failure or a position after the start and inside the buffer — or runs into one of four defects,
each of which needs a particular content: an unknown type byte, a float with mantissa `INT_MIN`, or a table (with a
bad key). -/
theorem C18_deserialise_safe (keq : Val → Val → Bool) (buf : Bytes) (pos : Nat) :
    match deserialize keq buf pos with
    | .ok none => True
    | .ok (some (_, p)) => pos < p ∧ p ≤ buf.length
    | .error .oob => False
    | .error .deep => False
    | .error .badType => ∃ i b, pos ≤ i ∧ buf[i]? = some b ∧ 6 < b.toNat
    | .error .absMin => ∃ i, pos ≤ i ∧ buf[i]? = some 2 ∧
        deser32 .little buf (i + 1) = .ok (some (2147483648, i + 1 + 4))
    | .error .keyCast => ∃ i, pos ≤ i ∧ buf[i]? = some 4
    | .error .keyAbort => ∃ i, pos ≤ i ∧ buf[i]? = some 4 := by
  have h := deser_safe keq buf (buf.length + 1) pos (by omega) (by omega)
  unfold deserialize
  revert h
  generalize deser keq buf (buf.length + 1) pos = r
  intro h
  match r, h with
  | .ok none, _ => trivial
  | .ok (some (_, p)), h => exact h
  | .error .oob, h => exact h
  | .error .deep, h => exact h
  | .error .badType, h => exact h
  | .error .absMin, h => exact h
  | .error .keyCast, h => exact h
  | .error .keyAbort, h => exact h

/-- Each defect can be triggered by a remote robot with a few bytes: an unknown type, a float with mantissa `INT_MIN`, a
table with a nil key, a table with a negative float key. -/
theorem C18_remote_defects (keq : Val → Val → Bool) :
    deserialize keq [7] 0 = .error .badType ∧
    deserialize keq [2, 0x80, 0, 0, 0, 0, 0, 0, 0] 0 = .error .absMin ∧
    deserialize keq [4, 1, 0, 0] 0 = .error .keyAbort ∧
    ∃ fl, ser (.flt (.fin (-1))) = .ok fl ∧
      deserialize keq ([4, 1] ++ fl ++ [0]) 0 = .error .keyCast := by
  refine ⟨rfl, ?_, rfl, ?_⟩
  · have h : deserFloat .little [2, 0x80, 0, 0, 0, 0, 0, 0, 0] 1 = .ub := by
      rcases deserFloat_total [2, 0x80, 0, 0, 0, 0, 0, 0, 0] 1 with h | ⟨_, f, h⟩ | ⟨_, _, h⟩
      · exfalso; revert h
        simp [deserFloat, deser32, rd, floatJoin, intOfU32, ntohl, swap32]
      · exfalso; revert h
        simp [deserFloat, deser32, rd, floatJoin, intOfU32, ntohl, swap32]
      · exact h
    show mapVal Val.flt (lift .absMin (deserFloat .little [2, 0x80, 0, 0, 0, 0, 0, 0, 0] 1)) = _
    rw [h]; rfl
  · have hf : IsF32 (-1) := ⟨-1, 0, by norm_num, by norm_num, by norm_num, by norm_num⟩
    obtain ⟨fl, h1, h2, h3⟩ := deser_ser keq (.flt (.fin (-1))) hf
    refine ⟨fl, h1, ?_⟩
    have hr := h3 ([4, 1] ++ fl ++ [0]).length (by simp [depth]) [4, 1] [0]
    have hk : keyCheck (.flt (.fin (-1))) = .error .keyCast := by
      have : ⌈(-1 : ℚ)⌉ = -1 := by rw [Int.ceil_eq_iff]; norm_num
      simp only [keyCheck, Obj.toU32, if_neg (show ¬ (0 : ℚ) ≤ -1 by norm_num), this]
      rfl
    have hv : deser keq ([4, 1] ++ fl ++ [0]) ([4, 1] ++ fl ++ [0]).length (([4, 1] : Bytes).length + fl.length) =
        .ok (some (.nil, ([4, 1] : Bytes).length + fl.length + 1)) := by
      have h8 := deser8_ser 0 (by omega) ([4, 1] ++ fl) []
      simp only [List.append_assoc, List.append_nil, List.length_append] at h8
      have hd : ([4, 1] ++ fl ++ [0] : Bytes).length = (2 + fl.length) + 1 := by
        simp only [List.length_append, List.length_cons, List.length_nil]
      rw [hd]
      simp only [deser, List.append_assoc]
      have hs : ser8 0 = [0] := rfl
      rw [hs] at h8
      rw [h8]
      rfl
    have h8a : deser8 ([4, 1] ++ fl ++ [0]) 0 = .ok (some (4, 1)) := by
      simp [deser8, rd]
    have h8b : deser8 ([4, 1] ++ fl ++ [0]) 1 = .ok (some (1, 2)) := by
      simp [deser8, rd]
    unfold deserialize
    simp only [deser, h8a, h8b, lift, loop]
    have e2 : ([4, 1] : Bytes).length = 2 := rfl
    rw [e2] at hr hv
    rw [hr]
    simp only [hv, hk]

end Buzz.Props
