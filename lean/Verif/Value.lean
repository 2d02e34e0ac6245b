import Verif.Obj
import Verif.MsgFloat

/-
Serialisation of Buzz values, src/buzz/buzztype.c 518-629.

A value is a finite tree: what an acyclic object graph unfolds to.  (Serialising a cyclic table never
returns; sharing is lost by serialisation.)  A table is the list of its entries in the order of
`buzzdict_foreach`; by C03/C04 a dictionary is determined up to order by that list.
-/
namespace Buzz.Value

open Buzz.F32 Buzz.Msg

mutual
/-- Buzz values as trees.  `clo native ref n`: a closure whose activation record has `n` entries. -/
inductive Val where
  | nil
  | int (v : Int)
  | flt (f : Flt)
  | str (s : Bytes)
  | table (es : Ents)
  | clo (native ref n : Nat)
  | user (p : Nat)
/-- Table entries. -/
inductive Ents where
  | nil
  | cons (k v : Val) (rest : Ents)
end

def Ents.toList : Ents → List (Val × Val)
  | .nil => []
  | .cons k v r => (k, v) :: r.toList

def Ents.ofList : List (Val × Val) → Ents
  | [] => .nil
  | (k, v) :: r => .cons k v (Ents.ofList r)

theorem Ents.ofList_toList : ∀ es : Ents, Ents.ofList es.toList = es
  | .nil => rfl
  | .cons k v r => by simp [Ents.toList, Ents.ofList, Ents.ofList_toList r]

theorem Ents.toList_ofList : ∀ l : List (Val × Val), (Ents.ofList l).toList = l
  | [] => rfl
  | (k, v) :: r => by simp [Ents.toList, Ents.ofList, Ents.toList_ofList r]

mutual
/-- `buzzobj_serialize` (buzztype.c 523-569). -/
def ser : Val → Res Bytes
  | .nil => .ok (ser8 0)
  | .int v => .ok (ser8 1 ++ ser32 .little (u32OfInt v))
  | .flt f => do
    let b ← serFloat .little f
    pure (ser8 2 ++ b)
  | .str s => .ok (ser8 3 ++ serString .little s)
  | .table es => do
    let b ← serEnts es
    pure (ser8 4 ++ (ser8 es.toList.length ++ b))
  | .clo native ref n => .ok (ser8 5 ++ if n = 1 then ser8 native ++ ser32 .little ref else [])
  | .user _ => .ok (ser8 6)
/-- `buzzdict_foreach` with `buzzobj_serialize_tableelem` (518-521). -/
def serEnts : Ents → Res Bytes
  | .nil => .ok []
  | .cons k v r => do
    let a ← ser k
    let b ← ser v
    let c ← serEnts r
    pure (a ++ (b ++ c))
end

/-- Ways in which deserialisation can go wrong beyond returning -1. -/
inductive DErr where
  /-- read outside the message buffer -/
  | oob
  /-- `buzztype_desc[type]` indexed out of range (626) -/
  | badType
  /-- `abs(INT_MIN)` (buzzmsg.c 156) -/
  | absMin
  /-- cast of an out-of-range float key to `uint32_t` (23) -/
  | keyCast
  /-- `abort()` on a key of unsupported type (29-30) -/
  | keyAbort
  /-- recursion deeper than the given bound -/
  | deep
  deriving DecidableEq

/-- The undefined outcomes of a byte reader are reads outside the buffer. -/
def lift {α : Type} (e : DErr) : Res α → Except DErr α
  | .ok a => .ok a
  | _ => .error e

/-- The key check done by `buzzobj_table_hash` (16-32) when an entry is stored. -/
def keyCheck : Val → Except DErr Unit
  | .int _ => .ok ()
  | .str _ => .ok ()
  | .flt f => match Obj.toU32 f with
    | .ok _ => .ok ()
    | _ => .error .keyCast
  | _ => .error .keyAbort

/-- `buzzdict_set` on the entries (C03): an entry with an equal key is replaced.  `keq` is the receiver's key
equality (same bucket and `buzzobj_cmp` zero). -/
def put (keq : Val → Val → Bool) (k v : Val) (l : List (Val × Val)) : List (Val × Val) :=
  l.eraseP (fun e => keq k e.1) ++ [(k, v)]

/-- The loop over the entries (607-615). -/
def loop (keq : Val → Val → Bool) (dv : Nat → Except DErr (Option (Val × Nat))) :
    Nat → List (Val × Val) → Nat → Except DErr (Option (Val × Nat))
  | 0, acc, p => .ok (some (.table (Ents.ofList acc), p))
  | n + 1, acc, p =>
    match dv p with
    | .error e => .error e
    | .ok none => .ok none
    | .ok (some (k, p1)) =>
      match dv p1 with
      | .error e => .error e
      | .ok none => .ok none
      | .ok (some (v, p2)) =>
        match keyCheck k with
        | .error e => .error e
        | .ok _ => loop keq dv n (put keq k v acc) p2

/-- Add a constructor to a reader's result. -/
def mapVal {α : Type} (f : α → Val) : Except DErr (Option (α × Nat)) → Except DErr (Option (Val × Nat))
  | .error e => .error e
  | .ok none => .ok none
  | .ok (some (a, p)) => .ok (some (f a, p))

/-- `buzzobj_deserialize` (574-629).  The first argument bounds the recursion depth.  A string is registered up to its
first zero byte (597). -/
def deser (keq : Val → Val → Bool) (buf : Bytes) : Nat → Nat → Except DErr (Option (Val × Nat))
  | 0, _ => .error .deep
  | d + 1, pos =>
    match lift .oob (deser8 buf pos) with
    | .error e => .error e
    | .ok none => .ok none
    | .ok (some (t, p)) =>
      match t with
      | 0 => .ok (some (.nil, p))
      | 1 => mapVal (fun n => .int (intOfU32 n)) (lift .oob (deser32 .little buf p))
      | 2 => mapVal .flt (lift .absMin (deserFloat .little buf p))
      | 3 => mapVal (fun s => .str (cstr s)) (lift .oob (deserString .little buf p))
      | 4 =>
        match lift .oob (deser8 buf p) with
        | .error e => .error e
        | .ok none => .ok none
        | .ok (some (n, p)) => loop keq (deser keq buf d) n [] p
      | 5 =>
        match lift .oob (deser8 buf p) with
        | .error e => .error e
        | .ok none => .ok none
        | .ok (some (nat, p)) => mapVal (fun r => .clo nat r 1) (lift .oob (deser32 .little buf p))
      | 6 => .ok none
      | _ => .error .badType

/-- `buzzobj_deserialize` as called: the depth bound can never be reached (C18). -/
def deserialize (keq : Val → Val → Bool) (buf : Bytes) (pos : Nat) : Except DErr (Option (Val × Nat)) :=
  deser keq buf (buf.length + 1) pos

/-! ### Values that can be sent -/

/-- Keys the receiver can store. -/
def KeyOk : Val → Prop
  | .int _ => True
  | .str _ => True
  | .flt (.fin q) => 0 ≤ q ∧ q < 4294967296
  | _ => False

mutual
/-- Values the wire format supports. -/
def WireOk (keq : Val → Val → Bool) : Val → Prop
  | .nil => True
  | .int v => -2147483648 ≤ v ∧ v ≤ 2147483647
  | .flt (.fin q) => IsF32 q
  | .flt _ => False
  | .str s => s.length < 65536 ∧ ∀ b ∈ s, b ≠ 0
  | .table es => es.toList.length ≤ 255 ∧ es.toList.Pairwise (fun a b => keq b.1 a.1 = false) ∧ EntsOk keq es
  | .clo native ref n => native < 256 ∧ ref < 4294967296 ∧ n = 1
  | .user _ => False
/-- All entries are supported, keys included. -/
def EntsOk (keq : Val → Val → Bool) : Ents → Prop
  | .nil => True
  | .cons k v r => WireOk keq k ∧ KeyOk k ∧ WireOk keq v ∧ EntsOk keq r
end

/-! ### Round trip -/

theorem keyCheck_ok {k : Val} (h : KeyOk k) : keyCheck k = .ok () := by
  cases k <;> simp only [KeyOk] at h <;> try rfl
  rename_i f
  cases f with
  | fin q =>
    simp only [KeyOk] at h
    have h1 : (0 : ℤ) ≤ ⌊q⌋ := Int.floor_nonneg.mpr h.1
    have h2 : ⌊q⌋ < 4294967296 := by
      have : ((4294967296 : ℤ) : ℚ) = 4294967296 := by norm_num
      exact Int.floor_lt.mpr (by rw [this]; exact h.2)
    simp only [keyCheck, Obj.toU32, if_pos h.1, if_pos (And.intro h1 h2)]
  | inf n => simp [KeyOk] at h
  | nan => simp [KeyOk] at h

theorem put_new (keq : Val → Val → Bool) (k v : Val) (l : List (Val × Val))
    (h : ∀ e ∈ l, keq k e.1 = false) : put keq k v l = l ++ [(k, v)] := by
  unfold put
  rw [List.eraseP_of_forall_not]
  intro e he
  simp [h e he]

mutual
/-- Nesting depth. -/
def depth : Val → Nat
  | .table es => depthE es + 1
  | _ => 1
def depthE : Ents → Nat
  | .nil => 0
  | .cons k v r => max (max (depth k) (depth v)) (depthE r)
end

theorem ser8_length (d : Nat) : (ser8 d).length = 1 := rfl

mutual
/-- Serialising a supported value succeeds, and reading at its position gives it back. -/
theorem deser_ser (keq : Val → Val → Bool) : ∀ (v : Val), WireOk keq v → ∃ bs, ser v = .ok bs ∧ depth v ≤ bs.length ∧
    ∀ (d : Nat), depth v ≤ d → ∀ (pre post : Bytes),
      deser keq (pre ++ bs ++ post) d pre.length = .ok (some (v, pre.length + bs.length))
  | .nil, _ => by
    refine ⟨ser8 0, rfl, by simp [depth, ser8_length], ?_⟩
    intro d hd pre post
    obtain ⟨d, rfl⟩ : ∃ d', d = d' + 1 := ⟨d - 1, by simp [depth] at hd; omega⟩
    simp only [deser, deser8_ser 0 (by omega) pre post, lift, ser8_length]
  | .int i, h => by
    simp only [WireOk] at h
    refine ⟨ser8 1 ++ ser32 .little (u32OfInt i), rfl, by simp [depth, ser8_length], ?_⟩
    intro d hd pre post
    obtain ⟨d, rfl⟩ : ∃ d', d = d' + 1 := ⟨d - 1, by simp [depth] at hd; omega⟩
    have h1 := deser8_ser 1 (by omega) pre (ser32 .little (u32OfInt i) ++ post)
    have h2 := deser32_ser (u32OfInt i) (u32OfInt_lt i) (pre ++ ser8 1) post
    simp only [List.append_assoc, List.length_append, ser8_length] at h1 h2 ⊢
    simp only [deser, h1, h2, lift, mapVal, intOfU32_u32OfInt i h.1 h.2, ser32_length, Nat.add_assoc]
  | .flt (.fin q), h => by
    simp only [WireOk] at h
    obtain ⟨bs, hb, hl, _⟩ := deserFloat_ser h [] []
    refine ⟨ser8 2 ++ bs, by simp [ser, hb], by simp [depth, ser8_length], ?_⟩
    intro d hd pre post
    obtain ⟨d, rfl⟩ : ∃ d', d = d' + 1 := ⟨d - 1, by simp [depth] at hd; omega⟩
    obtain ⟨bs', hb', _, h2⟩ := deserFloat_ser h (pre ++ ser8 2) post
    rw [hb] at hb'; cases hb'
    have h1 := deser8_ser 2 (by omega) pre (bs ++ post)
    simp only [List.append_assoc, List.length_append, ser8_length] at h1 h2 ⊢
    simp only [deser, h1, h2, lift, mapVal, hl, Nat.add_assoc]
  | .flt (.inf n), h => by simp [WireOk] at h
  | .flt .nan, h => by simp [WireOk] at h
  | .str s, h => by
    simp only [WireOk] at h
    refine ⟨ser8 3 ++ serString .little s, rfl, by simp [depth, ser8_length], ?_⟩
    intro d hd pre post
    obtain ⟨d, rfl⟩ : ∃ d', d = d' + 1 := ⟨d - 1, by simp [depth] at hd; omega⟩
    have h1 := deser8_ser 3 (by omega) pre (serString .little s ++ post)
    have h2 := deserString_ser s h.1 (pre ++ ser8 3) post
    simp only [List.append_assoc, List.length_append, ser8_length] at h1 h2 ⊢
    simp only [deser, h1, h2, lift, mapVal, cstr_eq h.2, Nat.add_assoc]
  | .table es, h => by
    simp only [WireOk] at h
    obtain ⟨bs, hb, hd, hr⟩ := loop_ser keq es h.2.2
    refine ⟨ser8 4 ++ (ser8 es.toList.length ++ bs), by simp [ser, hb], ?_, ?_⟩
    · simp [depth, ser8_length]; omega
    · intro d hd pre post
      obtain ⟨d, rfl⟩ : ∃ d', d = d' + 1 := ⟨d - 1, by simp [depth] at hd; omega⟩
      have h1 := deser8_ser 4 (by omega) pre (ser8 es.toList.length ++ (bs ++ post))
      have h2 := deser8_ser es.toList.length (by omega) (pre ++ ser8 4) (bs ++ post)
      have h3 := hr d (by simp only [depth] at hd; omega) (pre ++ (ser8 4 ++ ser8 es.toList.length)) post []
        (by simpa using h.2.1)
      simp only [List.append_assoc, List.length_append, ser8_length] at h1 h2 h3 ⊢
      simp only [Nat.add_assoc] at h3 ⊢
      simp only [deser, h1, h2, lift, Nat.add_assoc, h3, List.nil_append, Ents.ofList_toList]
  | .clo native ref n, h => by
    simp only [WireOk] at h
    refine ⟨ser8 5 ++ (ser8 native ++ ser32 .little ref), by simp [ser, h.2.2], by simp [depth, ser8_length], ?_⟩
    intro d hd pre post
    obtain ⟨d, rfl⟩ : ∃ d', d = d' + 1 := ⟨d - 1, by simp [depth] at hd; omega⟩
    have h1 := deser8_ser 5 (by omega) pre (ser8 native ++ (ser32 .little ref ++ post))
    have h2 := deser8_ser native h.1 (pre ++ ser8 5) (ser32 .little ref ++ post)
    have h3 := deser32_ser ref h.2.1 (pre ++ (ser8 5 ++ ser8 native)) post
    simp only [List.append_assoc, List.length_append, ser8_length, Nat.add_assoc] at h1 h2 h3 ⊢
    simp only [deser, h1, h2, h3, lift, mapVal, h.2.2, ser32_length, Nat.add_assoc]
  | .user p, h => by simp [WireOk] at h
/-- The same for the entries of a table. -/
theorem loop_ser (keq : Val → Val → Bool) : ∀ (es : Ents), EntsOk keq es → ∃ bs, serEnts es = .ok bs ∧
    depthE es ≤ bs.length ∧
    ∀ (d : Nat), depthE es ≤ d → ∀ (pre post : Bytes) (acc : List (Val × Val)),
      (acc ++ es.toList).Pairwise (fun a b => keq b.1 a.1 = false) →
      loop keq (deser keq (pre ++ bs ++ post) d) es.toList.length acc pre.length =
        .ok (some (.table (Ents.ofList (acc ++ es.toList)), pre.length + bs.length))
  | .nil, _ => by
    refine ⟨[], rfl, by simp [depthE], ?_⟩
    intro d _ pre post acc _
    simp [Ents.toList, loop]
  | .cons k v r, h => by
    simp only [EntsOk] at h
    obtain ⟨bk, hbk, dk, rk⟩ := deser_ser keq k h.1
    obtain ⟨bv, hbv, dv, rv⟩ := deser_ser keq v h.2.2.1
    obtain ⟨br, hbr, dr, rr⟩ := loop_ser keq r h.2.2.2
    refine ⟨bk ++ (bv ++ br), by simp [serEnts, hbk, hbv, hbr], ?_, ?_⟩
    · simp only [depthE, List.length_append]; omega
    · intro d hd pre post acc hp
      simp only [depthE] at hd
      have h1 := rk d (by omega) pre (bv ++ (br ++ post))
      have h2 := rv d (by omega) (pre ++ bk) (br ++ post)
      have hnew : ∀ e ∈ acc, keq k e.1 = false := by
        intro e he
        rw [List.pairwise_append] at hp
        exact hp.2.2 e he (k, v) (by simp [Ents.toList])
      have h3 := rr d (by omega) (pre ++ (bk ++ bv)) post (acc ++ [(k, v)]) (by
        simpa [Ents.toList] using hp)
      simp only [List.append_assoc, List.length_append, Nat.add_assoc] at h1 h2 h3 ⊢
      simp only [Ents.toList, List.length_cons, loop, h1, h2, keyCheck_ok h.2.1, put_new keq k v acc hnew]
      rw [h3]
      simp [Ents.toList]
end

/-! ### Safety on arbitrary input -/

theorem deserFloat_total (buf : Bytes) (pos : Nat) :
    deserFloat .little buf pos = .ok none ∨
    (pos + 8 ≤ buf.length ∧ ∃ f, deserFloat .little buf pos = .ok (some (f, pos + 8))) ∨
    (pos + 8 ≤ buf.length ∧ deser32 .little buf pos = .ok (some (2147483648, pos + 4)) ∧
      deserFloat .little buf pos = .ub) := by
  unfold deserFloat
  split
  · left; rfl
  · rename_i hp
    rcases deser32_total .little buf pos with ⟨h1, _⟩ | ⟨h1, m, hm, e1⟩
    · omega
    rcases deser32_total .little buf (pos + 4) with ⟨h2, _⟩ | ⟨h2, e, he, e2⟩
    · omega
    right
    simp only [e1, e2, Res.ok_bind]
    by_cases hmin : intOfU32 m = -2147483648
    · right
      have hm' : m = 2147483648 := by
        unfold intOfU32 at hmin; split at hmin <;> omega
      refine ⟨by omega, by rw [hm'], ?_⟩
      simp [floatJoin, hmin]
    · left
      refine ⟨by omega, ?_⟩
      by_cases h0 : intOfU32 m = 0
      · exact ⟨.fin 0, by simp [floatJoin, h0]⟩
      · exact ⟨_, by simp only [floatJoin, if_neg h0, if_neg hmin, Res.ok_bind, Res.pure_eq]; rfl⟩

/-- What must be in the buffer, at or after `pos`, for a defect to show. -/
def Bad (buf : Bytes) (pos : Nat) : DErr → Prop
  | .oob => False
  | .deep => False
  | .badType => ∃ i b, pos ≤ i ∧ buf[i]? = some b ∧ 6 < b.toNat
  | .absMin => ∃ i, pos ≤ i ∧ buf[i]? = some 2 ∧ deser32 .little buf (i + 1) = .ok (some (2147483648, i + 1 + 4))
  | .keyCast => ∃ i, pos ≤ i ∧ buf[i]? = some 4
  | .keyAbort => ∃ i, pos ≤ i ∧ buf[i]? = some 4

/-- What a reader started at `pos` may do: fail, or succeed with a position after `pos` inside the buffer, or run into
a defect for which there is a cause in the buffer. -/
def Safe (buf : Bytes) (pos : Nat) : Except DErr (Option (Val × Nat)) → Prop
  | .ok none => True
  | .ok (some (_, p)) => pos < p ∧ p ≤ buf.length
  | .error e => Bad buf pos e

theorem Bad.mono {buf : Bytes} {p q : Nat} (h : p ≤ q) {e : DErr} (b : Bad buf q e) : Bad buf p e := by
  cases e <;> simp only [Bad] at b ⊢
  · obtain ⟨i, x, h1, h2⟩ := b; exact ⟨i, x, by omega, h2⟩
  · obtain ⟨i, h1, h2⟩ := b; exact ⟨i, by omega, h2⟩
  · obtain ⟨i, h1, h2⟩ := b; exact ⟨i, by omega, h2⟩
  · obtain ⟨i, h1, h2⟩ := b; exact ⟨i, by omega, h2⟩

theorem keyCheck_error {k : Val} {e : DErr} (h : keyCheck k = .error e) : e = .keyCast ∨ e = .keyAbort := by
  cases k <;> simp [keyCheck] at h
  · right; exact h.symm
  · split at h
    · simp at h
    · left; simpa using h.symm
  · right; exact h.symm
  · right; exact h.symm
  · right; exact h.symm

theorem loop_safe (keq : Val → Val → Bool) (buf : Bytes) (d : Nat)
    (ih : ∀ pos, pos ≤ buf.length → buf.length < pos + d → Safe buf pos (deser keq buf d pos)) :
    ∀ (n : Nat) (acc : List (Val × Val)) (p0 p : Nat), buf[p0]? = some 4 → p0 < p → p ≤ buf.length →
      buf.length < p + d → Safe buf p0 (loop keq (deser keq buf d) n acc p) := by
  intro n
  induction n with
  | zero =>
    intro acc p0 p _ h1 h2 _
    exact ⟨h1, h2⟩
  | succ n ihn =>
    intro acc p0 p h4 h1 h2 h3
    simp only [loop]
    have s1 := ih p h2 h3
    split
    · rename_i e he; rw [he] at s1; exact Bad.mono (by omega) s1
    · trivial
    · rename_i k p1 he; rw [he] at s1
      simp only [Safe] at s1
      have s2 := ih p1 s1.2 (by omega)
      split
      · rename_i e he; rw [he] at s2; exact Bad.mono (by omega) s2
      · trivial
      · rename_i v p2 he; rw [he] at s2
        simp only [Safe] at s2
        split
        · rename_i e hk
          rcases keyCheck_error hk with rfl | rfl
          · exact ⟨p0, Nat.le_refl _, h4⟩
          · exact ⟨p0, Nat.le_refl _, h4⟩
        · exact ihn _ p0 p2 h4 (by omega) s2.2 (by omega)

theorem deser8_byte {buf : Bytes} {pos t p : Nat} (h : deser8 buf pos = .ok (some (t, p))) :
    buf[pos]? = some (byte t) ∧ t < 256 ∧ p = pos + 1 ∧ pos + 1 ≤ buf.length := by
  unfold deser8 at h
  split at h
  · simp at h
  · rename_i hp
    have hlt : pos < buf.length := by omega
    have hg : buf[pos]? = some buf[pos] := List.getElem?_eq_getElem hlt
    simp only [rd, hg, Res.ok_bind, Res.pure_eq, Res.ok.injEq, Option.some.injEq, Prod.mk.injEq] at h
    refine ⟨?_, ?_, h.2.symm, by omega⟩
    · rw [hg, ← h.1]; simp [byte]
    · rw [← h.1]; exact toNat_lt _

theorem deser_safe (keq : Val → Val → Bool) (buf : Bytes) : ∀ (d pos : Nat), 0 < d → buf.length < pos + d →
    Safe buf pos (deser keq buf d pos) := by
  intro d
  induction d with
  | zero => intro pos h0 _; omega
  | succ d ih =>
    intro pos _ h
    have ih' : ∀ pos, pos ≤ buf.length → buf.length < pos + d → Safe buf pos (deser keq buf d pos) :=
      fun pos h1 h2 => ih pos (by omega) h2
    simp only [deser]
    rcases deser8_total buf pos with ⟨_, e⟩ | ⟨g1, t, ht, e⟩ <;> rw [e] <;> simp only [lift]
    · trivial
    · obtain ⟨hbyte, _, _, _⟩ := deser8_byte e
      split
      · exact ⟨by omega, g1⟩
      · rcases deser32_total .little buf (pos + 1) with ⟨_, e⟩ | ⟨g2, v, hv, e⟩ <;> rw [e] <;> simp only [lift, mapVal]
        · trivial
        · exact ⟨by omega, g2⟩
      · rcases deserFloat_total buf (pos + 1) with e | ⟨g2, v, e⟩ | ⟨_, e1, e⟩ <;> rw [e] <;> simp only [lift, mapVal]
        · trivial
        · exact ⟨by omega, g2⟩
        · exact ⟨pos, Nat.le_refl _, hbyte, e1⟩
      · rcases deserString_total .little buf (pos + 1) with e | ⟨v, _, g2, e⟩ <;> rw [e] <;> simp only [lift, mapVal]
        · trivial
        · exact ⟨by omega, g2⟩
      · rcases deser8_total buf (pos + 1) with ⟨_, e⟩ | ⟨g2, n, _, e⟩ <;> rw [e] <;> simp only [lift]
        · trivial
        · exact loop_safe keq buf d ih' n [] pos (pos + 1 + 1) hbyte (by omega) g2 (by omega)
      · rcases deser8_total buf (pos + 1) with ⟨_, e⟩ | ⟨g2, n, _, e⟩ <;> rw [e] <;> simp only [lift]
        · trivial
        · rcases deser32_total .little buf (pos + 1 + 1) with ⟨_, e⟩ | ⟨g2, v, hv, e⟩ <;> rw [e] <;>
            simp only [lift, mapVal]
          · trivial
          · exact ⟨by omega, g2⟩
      · trivial
      · rename_i h0 h1 h2 h3 h4 h5 h6
        have := (⟨h0, h1, h2, h3, h4, h5, h6⟩ : t ≠ 0 ∧ t ≠ 1 ∧ t ≠ 2 ∧ t ≠ 3 ∧ t ≠ 4 ∧ t ≠ 5 ∧ t ≠ 6)
        refine ⟨pos, _, Nat.le_refl _, hbyte, ?_⟩
        rw [byte_toNat _ ht]
        omega

end Buzz.Value
