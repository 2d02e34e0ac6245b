import Verif.F32

/-
Byte-level message (de)serialisation, src/buzz/buzzmsg.c.

The buffer is a list of bytes (the dynamic array refines a list, property C01).  Positions are naturals:
simplification, `pos + len` on line 194 is 32-bit arithmetic, so buffers are taken to be shorter than
2^32 - 65536 bytes.  `-1` is rendered by `none`.
-/
namespace Buzz.Msg

open Buzz.F32

abbrev Bytes := List UInt8

/-- Byte order of the host machine. -/
inductive Endian where
  | little
  | big
  deriving DecidableEq, Repr

/-- A byte of a number. -/
abbrev byte (n : Nat) : UInt8 := UInt8.ofNat n

/-- Exchange the two bytes of a 16-bit word. -/
def swap16 (x : Nat) : Nat := x % 256 * 256 + x / 256 % 256

/-- Reverse the four bytes of a 32-bit word. -/
def swap32 (x : Nat) : Nat :=
  x % 256 * 16777216 + x / 256 % 256 * 65536 + x / 65536 % 256 * 256 + x / 16777216 % 256

/-- `htons` / `ntohs` (libc): byte swap on a little-endian host, identity on a big-endian one. -/
def ntohs : Endian → Nat → Nat
  | .little, x => swap16 x
  | .big, x => x

/-- `htonl` / `ntohl` (libc). -/
def ntohl : Endian → Nat → Nat
  | .little, x => swap32 x
  | .big, x => x

/-- The bytes of a 16-bit word in memory, lowest address first. -/
def mem16 : Endian → Nat → Bytes
  | .little, x => [byte (x % 256), byte (x / 256 % 256)]
  | .big, x => [byte (x / 256 % 256), byte (x % 256)]

/-- The bytes of a 32-bit word in memory, lowest address first. -/
def mem32 : Endian → Nat → Bytes
  | .little, x => [byte (x % 256), byte (x / 256 % 256), byte (x / 65536 % 256), byte (x / 16777216 % 256)]
  | .big, x => [byte (x / 16777216 % 256), byte (x / 65536 % 256), byte (x / 256 % 256), byte (x % 256)]

/-- `buzzmsg_serialize_u8` (buzzmsg.c 16-19): the pushed bytes. -/
def ser8 (d : Nat) : Bytes := [byte (d % 256)]

/-- `buzzmsg_serialize_u16` (35-40). -/
def ser16 (h : Endian) (d : Nat) : Bytes := mem16 h (ntohs h (d % U16))

/-- `buzzmsg_serialize_u32` (59-66). -/
def ser32 (h : Endian) (d : Nat) : Bytes := mem32 h (ntohl h (d % U32))

/-- `buzzdarray_get(buf, i, uint8_t)`: reading outside the array is undefined. -/
def rd (buf : Bytes) (i : Nat) : Res Nat :=
  match buf[i]? with
  | some b => .ok b.toNat
  | none => .ub

/-- `buzzmsg_deserialize_u8` (24-30). -/
def deser8 (buf : Bytes) (pos : Nat) : Res (Option (Nat × Nat)) :=
  if pos + 1 > buf.length then .ok none else do
  let b ← rd buf pos
  pure (some (b, pos + 1))

/-- `buzzmsg_deserialize_u16` (45-54). -/
def deser16 (h : Endian) (buf : Bytes) (pos : Nat) : Res (Option (Nat × Nat)) :=
  if pos + 2 > buf.length then .ok none else do
  let b0 ← rd buf pos
  let b1 ← rd buf (pos + 1)
  pure (some (ntohs h (b0 + b1 * 256), pos + 2))

/-- `buzzmsg_deserialize_u32` (71-82).  Simplification: `x << 24` on line 79 shifts into the sign bit of `int`
for bytes of at least 128; it is taken as the two's complement result that compilers give. -/
def deser32 (h : Endian) (buf : Bytes) (pos : Nat) : Res (Option (Nat × Nat)) :=
  if pos + 4 > buf.length then .ok none else do
  let b0 ← rd buf pos
  let b1 ← rd buf (pos + 1)
  let b2 ← rd buf (pos + 2)
  let b3 ← rd buf (pos + 3)
  pure (some (ntohl h (b0 + b1 * 256 + b2 * 65536 + b3 * 16777216), pos + 4))

/-- Conversion of an `int32_t` to `uint32_t`. -/
def u32OfInt (i : Int) : Nat := (i % 4294967296).toNat

/-- Reinterpretation of a `uint32_t` as `int32_t`. -/
def intOfU32 (n : Nat) : Int := if n < 2147483648 then n else (n : Int) - 4294967296

/-- `MAX_MANTISSA` (11). -/
def maxMantissa : ℚ := 2147483646

/-- `frexpf` (libc) on a finite number. -/
def frexp (x : ℚ) : ℚ × ℤ :=
  if x = 0 then (0, 0) else (x / 2 ^ (Int.log 2 |x| + 1), Int.log 2 |x| + 1)

/-- The cast `(int32_t)` of a float: truncation, undefined out of range. -/
def toInt32 (x : ℚ) : Res Int :=
  let t := if 0 ≤ x then ⌊x⌋ else ⌈x⌉
  if -2147483648 ≤ t ∧ t ≤ 2147483647 then .ok t else .ub

/-- Signed 32-bit addition with undefined overflow. -/
def addI32 (a b : Int) : Res Int :=
  if -2147483648 ≤ a + b ∧ a + b ≤ 2147483647 then .ok (a + b) else .ub

/-- Lines 98-120: mantissa and exponent of a finite float.  Every operation is rounded to binary32; the `int`
operand `MAX_MANTISSA` is converted to `float` first. -/
def floatParts (x : ℚ) : Res (Int × Int) := do
  let fe := frexp x
  let nf := rnd (|fe.1| - 1 / 2)
  if nf < 0 then pure (0, fe.2) else do
  let t ← toInt32 (rnd (rnd (nf * 2) * rnd maxMantissa))
  let mant ← addI32 t 1
  pure (if x < 0 then -mant else mant, fe.2)

/-- `buzzmsg_serialize_float` (87-124).  Infinities and NaN reach the cast on line 117, which is undefined for
them. -/
def serFloat (h : Endian) : Flt → Res Bytes
  | .fin x => do
    let p ← floatParts x
    pure (ser32 h (u32OfInt p.1) ++ ser32 h (u32OfInt p.2))
  | .inf _ => .ub
  | .nan => .ub

/-- Negation of a float. -/
def negF : Flt → Flt
  | .fin x => .fin (-x)
  | .inf n => .inf (!n)
  | .nan => .nan

/-- Lines 140-161.  `abs(INT_MIN)` is undefined.  `ldexpf` scales and rounds once. -/
def floatJoin (mant exp : Int) : Res Flt :=
  if mant = 0 then .ok (.fin 0)
  else if mant = -2147483648 then .ub
  else
    let y := rnd (rnd (rnd ((|mant| - 1 : Int) : ℚ) / rnd (2 * rnd maxMantissa)) + 1 / 2)
    let d := toFlt (y * 2 ^ exp)
    .ok (if mant < 0 then negF d else d)

/-- `buzzmsg_deserialize_float` (129-163). -/
def deserFloat (h : Endian) (buf : Bytes) (pos : Nat) : Res (Option (Flt × Nat)) :=
  if pos + 8 > buf.length then .ok none else do
  let m ← deser32 h buf pos
  match m with
  | none => .ub
  | some (m, pos) => do
  let e ← deser32 h buf pos
  match e with
  | none => .ub
  | some (e, pos) => do
  let f ← floatJoin (intOfU32 m) (intOfU32 e)
  pure (some (f, pos))

/-- `buzzmsg_serialize_string` (168-180); a C string is a list of non-zero bytes. -/
def serString (h : Endian) (s : Bytes) : Bytes := ser16 h (s.length % U16) ++ s

/-- `memcpy` out of the buffer (198). -/
def copyOut (buf : Bytes) (pos len : Nat) : Res Bytes :=
  if pos + len ≤ buf.length then .ok ((buf.drop pos).take len) else .ub

/-- `buzzmsg_deserialize_string` (185-203).  The result is the whole copied block; read as a C string it ends at its
first zero byte, see `cstr`. -/
def deserString (h : Endian) (buf : Bytes) (pos : Nat) : Res (Option (Bytes × Nat)) :=
  if pos + 2 > buf.length then .ok none else do
  let l ← deser16 h buf pos
  match l with
  | none => .ub
  | some (len, pos) =>
    if pos + len > buf.length then .ok none else do
    let s ← copyOut buf pos len
    pure (some (s, pos + len))

/-- The C string stored in a block of bytes. -/
def cstr (s : Bytes) : Bytes := s.takeWhile (· ≠ 0)

/-! ### Lemmas -/

theorem byte_toNat (n : Nat) (h : n < 256) : (byte n).toNat = n := by
  simp [byte, UInt8.toNat_ofNat, Nat.mod_eq_of_lt h]

theorem toNat_lt (b : UInt8) : b.toNat < 256 := b.toNat_lt

theorem rd_app (pre : Bytes) (b : UInt8) (post : Bytes) : rd (pre ++ b :: post) pre.length = .ok b.toNat := by
  simp [rd]

theorem rd_mid (pre mid post : Bytes) (i : Nat) (b : UInt8) (hb : mid[i]? = some b) :
    rd (pre ++ mid ++ post) (pre.length + i) = .ok b.toNat := by
  have hi : i < mid.length := by
    rw [List.getElem?_eq_some_iff] at hb; exact hb.1
  have : (pre ++ mid ++ post)[pre.length + i]? = some b := by
    rw [List.append_assoc, List.getElem?_append_right (by omega)]
    rw [Nat.add_sub_cancel_left, List.getElem?_append_left hi]
    exact hb
  simp only [rd, this]

theorem rd_ok (buf : Bytes) (i : Nat) (h : i < buf.length) : ∃ n, n < 256 ∧ rd buf i = .ok n := by
  refine ⟨(buf[i]).toNat, toNat_lt _, ?_⟩
  simp [rd, List.getElem?_eq_getElem h]

theorem ser16_eq (h : Endian) (d : Nat) (hd : d < 65536) : ser16 h d = [byte (d / 256), byte (d % 256)] := by
  have e0 : d % U16 = d := Nat.mod_eq_of_lt hd
  have e1 : d / 256 % 256 = d / 256 := Nat.mod_eq_of_lt (by omega)
  have e2 : (d % 256 * 256 + d / 256) % 256 = d / 256 := by omega
  have e3 : (d % 256 * 256 + d / 256) / 256 % 256 = d % 256 := by omega
  cases h
  · simp only [ser16, mem16, ntohs, swap16, e0, e1, e2, e3]
  · simp only [ser16, mem16, ntohs, e0, e1]

theorem ser32_eq (h : Endian) (d : Nat) (hd : d < 4294967296) : ser32 h d =
    [byte (d / 16777216), byte (d / 65536 % 256), byte (d / 256 % 256), byte (d % 256)] := by
  have e0 : d % U32 = d := Nat.mod_eq_of_lt hd
  have e1 : d / 16777216 % 256 = d / 16777216 := Nat.mod_eq_of_lt (by omega)
  have g : ∀ a b c e : Nat, a < 256 → b < 256 → c < 256 → e < 256 →
      (e * 16777216 + c * 65536 + b * 256 + a) % 256 = a ∧
      (e * 16777216 + c * 65536 + b * 256 + a) / 256 % 256 = b ∧
      (e * 16777216 + c * 65536 + b * 256 + a) / 65536 % 256 = c ∧
      (e * 16777216 + c * 65536 + b * 256 + a) / 16777216 % 256 = e := by
    intro a b c e _ _ _ _
    omega
  obtain ⟨g1, g2, g3, g4⟩ := g (d / 16777216) (d / 65536 % 256) (d / 256 % 256) (d % 256) (by omega)
    (Nat.mod_lt _ (by omega)) (Nat.mod_lt _ (by omega)) (Nat.mod_lt _ (by omega))
  cases h
  · simp only [ser32, mem32, ntohl, swap32, e0, e1, g1, g2, g3, g4]
  · simp only [ser32, mem32, ntohl, e0, e1]

theorem swap16_bytes (a b : Nat) (ha : a < 256) (hb : b < 256) : swap16 (a + b * 256) = a * 256 + b := by
  have h1 : (a + b * 256) % 256 = a := by omega
  have h2 : (a + b * 256) / 256 % 256 = b := by omega
  simp only [swap16, h1, h2]

theorem swap32_bytes (a b c e : Nat) (ha : a < 256) (hb : b < 256) (hc : c < 256) (he : e < 256) :
    swap32 (a + b * 256 + c * 65536 + e * 16777216) = a * 16777216 + b * 65536 + c * 256 + e := by
  have h1 : (a + b * 256 + c * 65536 + e * 16777216) % 256 = a := by omega
  have h2 : (a + b * 256 + c * 65536 + e * 16777216) / 256 % 256 = b := by omega
  have h3 : (a + b * 256 + c * 65536 + e * 16777216) / 65536 % 256 = c := by omega
  have h4 : (a + b * 256 + c * 65536 + e * 16777216) / 16777216 % 256 = e := by omega
  simp only [swap32, h1, h2, h3, h4]

theorem ser16_length (h : Endian) (d : Nat) : (ser16 h d).length = 2 := by cases h <;> rfl
theorem ser32_length (h : Endian) (d : Nat) : (ser32 h d).length = 4 := by cases h <;> rfl

theorem deser8_ser (d : Nat) (hd : d < 256) (pre post : Bytes) :
    deser8 (pre ++ ser8 d ++ post) pre.length = .ok (some (d, pre.length + 1)) := by
  have h1 := rd_mid pre (ser8 d) post 0 (byte (d % 256)) (by simp [ser8])
  have hl : (ser8 d).length = 1 := rfl
  have hlen : ¬ (pre.length + 1 > (pre ++ ser8 d ++ post).length) := by
    simp only [List.length_append, hl]; omega
  simp only [Nat.add_zero] at h1
  rw [byte_toNat _ (Nat.mod_lt _ (by omega)), Nat.mod_eq_of_lt hd] at h1
  simp only [deser8, if_neg hlen, h1]
  rfl

theorem deser16_ser (d : Nat) (hd : d < 65536) (pre post : Bytes) :
    deser16 .little (pre ++ ser16 .little d ++ post) pre.length = .ok (some (d, pre.length + 2)) := by
  have hl : (ser16 .little d).length = 2 := ser16_length _ _
  have hlen : ¬ (pre.length + 2 > (pre ++ ser16 .little d ++ post).length) := by
    simp only [List.length_append, hl]; omega
  have he := ser16_eq .little d hd
  have h0 := rd_mid pre (ser16 .little d) post 0 (byte (d / 256)) (by rw [he]; rfl)
  have h1 := rd_mid pre (ser16 .little d) post 1 (byte (d % 256)) (by rw [he]; rfl)
  simp only [Nat.add_zero] at h0
  rw [byte_toNat _ (by omega)] at h0 h1
  simp only [deser16, if_neg hlen, h0, h1, Res.ok_bind, Res.pure_eq, ntohs]
  rw [swap16_bytes _ _ (by omega) (Nat.mod_lt _ (by omega))]
  congr 3
  omega

theorem deser32_ser (d : Nat) (hd : d < 4294967296) (pre post : Bytes) :
    deser32 .little (pre ++ ser32 .little d ++ post) pre.length = .ok (some (d, pre.length + 4)) := by
  have hl : (ser32 .little d).length = 4 := ser32_length _ _
  have hlen : ¬ (pre.length + 4 > (pre ++ ser32 .little d ++ post).length) := by
    simp only [List.length_append, hl]; omega
  have he := ser32_eq .little d hd
  have h0 := rd_mid pre (ser32 .little d) post 0 (byte (d / 16777216)) (by rw [he]; rfl)
  have h1 := rd_mid pre (ser32 .little d) post 1 (byte (d / 65536 % 256)) (by rw [he]; rfl)
  have h2 := rd_mid pre (ser32 .little d) post 2 (byte (d / 256 % 256)) (by rw [he]; rfl)
  have h3 := rd_mid pre (ser32 .little d) post 3 (byte (d % 256)) (by rw [he]; rfl)
  simp only [Nat.add_zero] at h0
  rw [byte_toNat _ (by omega)] at h0 h1 h2 h3
  simp only [deser32, if_neg hlen, h0, h1, h2, h3, Res.ok_bind, Res.pure_eq, ntohl]
  rw [swap32_bytes _ _ _ _ (by omega) (Nat.mod_lt _ (by omega)) (Nat.mod_lt _ (by omega)) (Nat.mod_lt _ (by omega))]
  congr 3
  omega

theorem deser8_total (buf : Bytes) (pos : Nat) :
    (buf.length < pos + 1 ∧ deser8 buf pos = .ok none) ∨
    (pos + 1 ≤ buf.length ∧ ∃ v, v < 256 ∧ deser8 buf pos = .ok (some (v, pos + 1))) := by
  by_cases h : pos + 1 > buf.length
  · left; exact ⟨h, by simp [deser8, h]⟩
  · right
    obtain ⟨v, hv, e⟩ := rd_ok buf pos (by omega)
    exact ⟨by omega, v, hv, by simp [deser8, h, e]⟩

theorem swap16_lt (x : Nat) : swap16 x < 65536 := by simp only [swap16]; omega
theorem swap32_lt (x : Nat) : swap32 x < 4294967296 := by simp only [swap32]; omega

theorem deser16_total (h : Endian) (buf : Bytes) (pos : Nat) :
    (buf.length < pos + 2 ∧ deser16 h buf pos = .ok none) ∨
    (pos + 2 ≤ buf.length ∧ ∃ v, v < 65536 ∧ deser16 h buf pos = .ok (some (v, pos + 2))) := by
  by_cases hp : pos + 2 > buf.length
  · left; exact ⟨hp, by simp [deser16, hp]⟩
  · right
    obtain ⟨v0, hv0, e0⟩ := rd_ok buf pos (by omega)
    obtain ⟨v1, hv1, e1⟩ := rd_ok buf (pos + 1) (by omega)
    refine ⟨by omega, ntohs h (v0 + v1 * 256), ?_, by simp [deser16, hp, e0, e1]⟩
    cases h
    · exact swap16_lt _
    · simp only [ntohs]; omega

theorem deser32_total (h : Endian) (buf : Bytes) (pos : Nat) :
    (buf.length < pos + 4 ∧ deser32 h buf pos = .ok none) ∨
    (pos + 4 ≤ buf.length ∧ ∃ v, v < 4294967296 ∧ deser32 h buf pos = .ok (some (v, pos + 4))) := by
  by_cases hp : pos + 4 > buf.length
  · left; exact ⟨hp, by simp [deser32, hp]⟩
  · right
    obtain ⟨v0, hv0, e0⟩ := rd_ok buf pos (by omega)
    obtain ⟨v1, hv1, e1⟩ := rd_ok buf (pos + 1) (by omega)
    obtain ⟨v2, hv2, e2⟩ := rd_ok buf (pos + 2) (by omega)
    obtain ⟨v3, hv3, e3⟩ := rd_ok buf (pos + 3) (by omega)
    refine ⟨by omega, ntohl h (v0 + v1 * 256 + v2 * 65536 + v3 * 16777216), ?_, by
      simp [deser32, hp, e0, e1, e2, e3]⟩
    cases h
    · exact swap32_lt _
    · simp only [ntohl]; omega

theorem deserString_ser (s : Bytes) (hs : s.length < 65536) (pre post : Bytes) :
    deserString .little (pre ++ serString .little s ++ post) pre.length =
      .ok (some (s, pre.length + (serString .little s).length)) := by
  have e16 := deser16_ser s.length hs pre (s ++ post)
  have hre : pre ++ serString .little s ++ post = pre ++ ser16 .little s.length ++ (s ++ post) := by
    simp [serString, Nat.mod_eq_of_lt hs]
  have hsl : (serString .little s).length = 2 + s.length := by
    simp [serString, ser16_length]
  rw [hre, hsl]
  have hl2 : (ser16 .little s.length).length = 2 := ser16_length _ _
  have hlen : ¬ (pre.length + 2 > (pre ++ ser16 .little s.length ++ (s ++ post)).length) := by
    simp only [List.length_append, hl2]; omega
  have hlen2 : ¬ (pre.length + 2 + s.length > (pre ++ ser16 .little s.length ++ (s ++ post)).length) := by
    simp only [List.length_append, hl2]; omega
  have hdrop : (pre ++ ser16 .little s.length ++ (s ++ post)).drop (pre.length + 2) = s ++ post := by
    apply List.drop_left'
    simp [hl2]
  simp only [deserString, if_neg hlen, e16, Res.ok_bind, if_neg hlen2, copyOut,
    if_pos (Nat.le_of_not_lt hlen2), hdrop, List.take_left, Res.pure_eq]
  rw [Nat.add_assoc]

theorem deserString_total (h : Endian) (buf : Bytes) (pos : Nat) :
    deserString h buf pos = .ok none ∨
    ∃ s, s.length < 65536 ∧ pos + 2 + s.length ≤ buf.length ∧
      deserString h buf pos = .ok (some (s, pos + 2 + s.length)) := by
  unfold deserString
  split
  · left; rfl
  · rename_i hp
    rcases deser16_total h buf pos with ⟨h1, _⟩ | ⟨h1, l, hl, e⟩
    · omega
    · rw [e]
      simp only [Res.ok_bind]
      split
      · left; rfl
      · rename_i hq
        right
        refine ⟨(buf.drop (pos + 2)).take l, ?_, ?_, ?_⟩
        · simp; omega
        · simp; omega
        · have : ((buf.drop (pos + 2)).take l).length = l := by simp; omega
          rw [this]
          simp [copyOut, Nat.le_of_not_lt hq]

theorem cstr_eq {s : Bytes} (h : ∀ b ∈ s, b ≠ 0) : cstr s = s := by
  unfold cstr
  induction s with
  | nil => rfl
  | cons a t ih =>
    rw [List.takeWhile_cons, if_pos (by simpa using h a (List.mem_cons_self ..)),
      ih (fun b hb => h b (List.mem_cons_of_mem _ hb))]

end Buzz.Msg
