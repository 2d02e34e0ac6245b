import Verif.OutMsg
import Verif.Msg

/-
Radio packets of the ARGoS controller, src/buzz/argos/buzz_controller.cpp: `ProcessOutMsgs` (783-815) and `ProcessInMsgs`
(745-775).  `CByteArray` belongs to ARGoS: `<<` and `PopFront` of a 16-bit integer are taken to be inverse, modelled as
most significant byte first; popping from an array that is too short is undefined.  `pay` gives the payload
`buzzoutmsg_queue_first` serialises.
-/
namespace Buzz.Packet

open Buzz.OutMsg Buzz.Msg

/-- `cData << UInt16`. -/
def put16 (n : Nat) : Bytes := [UInt8.ofNat (n / 256), UInt8.ofNat n]

/-- `cData.PopFront<UInt16>()`. -/
def pop16 : Bytes → Res (Nat × Bytes)
  | a :: b :: r => .ok (a.toNat * 256 + b.toNat, r)
  | _ => .ub

variable {B K D : Type} [DecidableEq K]

/-- The send loop (791-812).  `S` is the size of the radio packet; `S - 2` is unsigned, `S ≥ 2`.  Each round takes one unit of
fuel. -/
def fill (pay : OutMsg.Msg B K D → Bytes) (S : Nat) : Nat → Q B K D → Bytes → Res (Q B K D × Bytes)
  | 0, _, _ => .hang
  | fuel + 1, q, data =>
    if size q = 0 then .ok (q, data)
    else
      match first q with
      | none => .ub
      | some m =>
        if (pay m).length + 2 < S - 2 then
          if data.length + ((pay m).length + 2) > S then .ok (q, data)
          else do
            let q ← next q
            fill pay S fuel q (data ++ put16 (pay m).length ++ pay m)
        else do
          let q ← next q
          fill pay S fuel q data

/-- `ProcessOutMsgs` (783-818) after `buzzvm_process_outmsgs`: the packet and the remaining queue. -/
def packet (pay : OutMsg.Msg B K D → Bytes) (S fuel robot : Nat) (q : Q B K D) : Res (Q B K D × Bytes) := do
  let (q, data) ← fill pay S fuel q (put16 robot)
  pure (q, data ++ List.replicate (S - data.length) 0)

/-- The receive loop (760-772): the payloads appended to the input queue, in order. -/
def recvLoop : Nat → Bytes → List Bytes → Res (List Bytes)
  | 0, _, _ => .hang
  | fuel + 1, data, acc => do
    let (n, data) ← pop16 data
    if n > 0 ∧ data.length ≥ n then
      if (data.drop n).length > 2 then recvLoop fuel (data.drop n) (acc ++ [data.take n]) else pure (acc ++ [data.take n])
    else
      if data.length > 2 ∧ n > 0 then recvLoop fuel data acc else pure acc

/-- One packet in `ProcessInMsgs` (750-772): the sender and the payloads. -/
def recv (data : Bytes) : Res (Nat × List Bytes) := do
  let (rid, r) ← pop16 data
  let ps ← recvLoop (r.length + 1) r []
  pure (rid, ps)

/-! ### Lemmas -/

theorem pop16_put16 (n : Nat) (hn : n < 65536) (r : Bytes) : pop16 (put16 n ++ r) = .ok (n, r) := by
  have h1 : (UInt8.ofNat (n / 256)).toNat = n / 256 := by
    rw [UInt8.toNat_ofNat']; exact Nat.mod_eq_of_lt (by omega)
  have h2 : (UInt8.ofNat n).toNat = n % 256 := by
    rw [UInt8.toNat_ofNat']
  simp only [put16, pop16, List.cons_append, List.nil_append, h1, h2]
  congr 2
  omega

/-- One framed payload. -/
def frame (p : Bytes) : Bytes := put16 p.length ++ p

theorem length_frame (p : Bytes) : (frame p).length = p.length + 2 := by simp [frame, put16]

theorem recvLoop_frames (ps : List Bytes) (hp : ∀ p ∈ ps, p ≠ [] ∧ p.length < 65536) (k fuel : Nat) (acc : List Bytes)
    (hk : 2 ≤ (ps.flatMap frame ++ List.replicate k (0 : UInt8)).length)
    (hf : ps.length < fuel) :
    recvLoop fuel (ps.flatMap frame ++ List.replicate k 0) acc = .ok (acc ++ ps) := by
  induction ps generalizing fuel acc with
  | nil =>
    obtain ⟨f, rfl⟩ : ∃ f, fuel = f + 1 := ⟨fuel - 1, by simp at hf; omega⟩
    simp at hk
    obtain ⟨k', rfl⟩ : ∃ k', k = k' + 2 := ⟨k - 2, by omega⟩
    simp [recvLoop, pop16, List.replicate_succ]
  | cons p ps ih =>
    obtain ⟨f, rfl⟩ : ∃ f, fuel = f + 1 := ⟨fuel - 1, by simp at hf; omega⟩
    obtain ⟨hpn, hpl⟩ := hp p (by simp)
    have hpos : 0 < p.length := List.length_pos_iff.mpr hpn
    have e : (p :: ps).flatMap frame ++ List.replicate k (0 : UInt8) =
        put16 p.length ++ (p ++ (ps.flatMap frame ++ List.replicate k 0)) := by
      simp [frame]
    rw [e, recvLoop, pop16_put16 _ hpl, Res.ok_bind]
    simp only [List.length_append, List.drop_left, List.take_left, hpos, true_and, ge_iff_le, Nat.le_add_right, if_true,
      gt_iff_lt]
    split
    · rename_i h2
      rw [ih (fun p hp' => hp p (List.mem_cons_of_mem _ hp')) f (acc ++ [p]) (by simp only [List.length_append]; omega)
        (by simp at hf; omega)]
      simp
    · rename_i h2
      have : ps = [] := by
        cases ps with
        | nil => rfl
        | cons p' ps' =>
          exfalso
          obtain ⟨h3, _⟩ := hp p' (by simp)
          have h4 : 0 < p'.length := List.length_pos_iff.mpr h3
          simp only [List.flatMap_cons, List.length_append, length_frame] at h2
          omega
      subst this
      simp

theorem size_le_frames (ps : List Bytes) : ps.length ≤ (ps.flatMap frame).length := by
  induction ps with
  | nil => simp
  | cons p ps ih => simp only [List.flatMap_cons, List.length_append, length_frame, List.length_cons]; omega

/-- The receiver reads back the frames, whatever the padding. -/
theorem recv_frames (robot : Nat) (hr : robot < 65536) (ps : List Bytes) (hp : ∀ p ∈ ps, p ≠ [] ∧ p.length < 65536) (k : Nat)
    (hk : 4 ≤ (put16 robot ++ ps.flatMap frame ++ List.replicate k (0 : UInt8)).length) :
    recv (put16 robot ++ ps.flatMap frame ++ List.replicate k 0) = .ok (robot, ps) := by
  have h2 : 2 ≤ (ps.flatMap frame ++ List.replicate k (0 : UInt8)).length := by
    simp only [List.length_append, put16, List.length_cons, List.length_nil] at hk ⊢; omega
  unfold recv
  rw [List.append_assoc, pop16_put16 _ hr, Res.ok_bind]
  simp only
  rw [recvLoop_frames ps hp k _ [] h2 (by
    have := size_le_frames ps
    simp only [List.length_append]; omega)]
  rfl

/-- Reading any packet of at least four bytes terminates without undefined behaviour. -/
theorem recvLoop_total (data : Bytes) (h : 2 ≤ data.length) (fuel : Nat) (hf : data.length < fuel) (acc : List Bytes) :
    ∃ ps, recvLoop fuel data acc = .ok (acc ++ ps) ∧ (ps.map List.length).sum ≤ data.length ∧ ∀ p ∈ ps, p ≠ [] := by
  induction fuel generalizing data acc with
  | zero => omega
  | succ f ih =>
    match data, h with
    | a :: b :: r, _ =>
      simp only [recvLoop, pop16, Res.ok_bind]
      generalize hn : a.toNat * 256 + b.toNat = n
      simp only [List.length_cons] at hf
      split
      · rename_i hc
        have hne : r.take n ≠ [] := by
          intro h0
          have := congrArg List.length h0
          rw [List.length_take] at this
          simp only [List.length_nil] at this
          omega
        split
        · rename_i h2
          have hlt : (r.drop n).length ≤ r.length := by simp
          obtain ⟨ps, h3, h4, h5⟩ := ih (r.drop n) (by omega) (by omega) (acc ++ [r.take n])
          refine ⟨r.take n :: ps, by rw [h3]; simp, ?_, by simpa [hne] using h5⟩
          simp only [List.map_cons, List.sum_cons, List.length_take, List.length_cons]
          simp only [List.length_drop] at h4
          omega
        · refine ⟨[r.take n], rfl, ?_, by simpa using hne⟩
          simp only [List.map_cons, List.sum_cons, List.length_take, List.length_cons, List.map_nil, List.sum_nil]
          omega
      · split
        · rename_i h2
          obtain ⟨ps, h3, h4, h5⟩ := ih r (by omega) (by omega) acc
          exact ⟨ps, h3, by simp only [List.length_cons]; omega, h5⟩
        · exact ⟨[], by simp, by simp, by simp⟩

end Buzz.Packet
