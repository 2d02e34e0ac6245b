import Verif.InMsg
import Verif.Packet
import Verif.Props.Queues

/-
Properties C22 (input queue) and C49 (radio packets).
-/
namespace Buzz.Props

open Buzz.Msg

section Incoming

open Buzz.InMsg

variable {P : Type}

/-- Operations on the input queue. -/
inductive InOp (P : Type) where
  | append (rid : Nat) (p : P)
  | extract

/-- A history; collected are the extracted pairs, in order. -/
def inRun (s : In P) (out : List (Nat × P)) : List (InOp P) → Res (In P × List (Nat × P))
  | [] => .ok (s, out)
  | .append r p :: os => do
    let s ← append s r p
    inRun s out os
  | .extract :: os => do
    let (s, x) ← extract s
    inRun s (out ++ x.toList) os

/-- The pairs a history appends. -/
def arrived : List (InOp P) → List (Nat × P)
  | [] => []
  | .append r p :: os => (r, p) :: arrived os
  | .extract :: os => arrived os

/-- Sender ids are 16 bits wide. -/
def InOp.Fine : InOp P → Prop
  | .append r _ => r < 65536
  | .extract => True

/-- The pairs still waiting. -/
def waiting (s : In P) : List (Nat × P) := (List.range 65536).flatMap (fun r => (box s r).map (fun p => (r, p)))

theorem perm_flatMap_update {β : Type} (l : List Nat) (hn : l.Nodup) (f g : Nat → List β) (r : Nat) (hr : r ∈ l) (x : β)
    (h1 : g r = f r ++ [x]) (h2 : ∀ y, y ≠ r → g y = f y) : (l.flatMap g).Perm (l.flatMap f ++ [x]) := by
  induction l with
  | nil => simp at hr
  | cons a l ih =>
    rw [List.nodup_cons] at hn
    simp only [List.flatMap_cons]
    by_cases ha : a = r
    · subst ha
      have : l.flatMap g = l.flatMap f := by
        rw [List.flatMap_def, List.flatMap_def]
        congr 1
        apply List.map_congr_left
        intro y hy
        exact h2 y (by rintro rfl; exact hn.1 hy)
      rw [h1, this, List.append_assoc, List.append_assoc]
      exact List.Perm.append_left _ List.perm_append_comm
    · rw [h2 a ha, List.append_assoc]
      exact List.Perm.append_left _ (ih hn.2 (by simpa [Ne.symm ha] using hr))

theorem waiting_update {s s' : In P} {r : Nat} (hr : r < 65536) {p : P} (h1 : box s' r = box s r ++ [p])
    (h2 : ∀ x, x ≠ r → box s' x = box s x) : (waiting s').Perm (waiting s ++ [(r, p)]) := by
  apply perm_flatMap_update _ List.nodup_range _ _ r (List.mem_range.mpr hr)
  · rw [h1]; simp
  · intro y hy; rw [h2 y hy]

theorem waiting_nil {s : In P} : waiting s = [] ↔ ∀ r, r < 65536 → box s r = [] := by
  simp [waiting, List.flatMap_eq_nil_iff]

/-- The states of the input queue that histories lead to. -/
def InReached (s : In P) : Prop := ∃ ops out, (∀ o ∈ ops, InOp.Fine o) ∧ inRun new [] ops = .ok (s, out)

theorem inRun_spec (ops : List (InOp P)) (hf : ∀ o ∈ ops, o.Fine) (s : In P) (v : Inv s) (out : List (Nat × P)) :
    ∃ s' out', inRun s out ops = .ok (s', out') ∧ Inv s' ∧
      (out' ++ waiting s').Perm (out ++ waiting s ++ arrived ops) := by
  induction ops generalizing s out with
  | nil => exact ⟨s, out, rfl, v, by simp [arrived]⟩
  | cons o os ih =>
    have hfs := fun o ho => hf o (List.mem_cons_of_mem _ ho)
    cases o with
    | append r p =>
      have hr : r < 65536 := hf (.append r p) (by simp)
      obtain ⟨s1, h1, v1, h2, h3⟩ := append_spec v r hr p
      obtain ⟨s', out', h4, h5, h6⟩ := ih hfs s1 v1 out
      refine ⟨s', out', by simp [inRun, h1, h4], h5, h6.trans ?_⟩
      simp only [arrived]
      have := (waiting_update hr h2 h3).append_left out
      refine (this.append_right _).trans ?_
      simp
    | extract =>
      rcases extract_spec v with ⟨h1, _⟩ | ⟨r, p, s1, h1, hr, v1, h2, h3⟩
      · obtain ⟨s', out', h4, h5, h6⟩ := ih hfs s v out
        exact ⟨s', out', by simp [inRun, h1, h4], h5, h6.trans (by simp [arrived])⟩
      · obtain ⟨s', out', h4, h5, h6⟩ := ih hfs s1 v1 (out ++ [(r, p)])
        refine ⟨s', out', by simp [inRun, h1, h4], h5, h6.trans ?_⟩
        simp only [arrived]
        refine List.Perm.append_right _ ?_
        have := (waiting_update hr h2 (fun x hx => (h3 x hx).symm)).append_left out
        refine List.Perm.trans ?_ this.symm
        rw [List.append_assoc]
        exact List.Perm.append_left _ List.perm_append_comm

theorem InReached.inv {s : In P} (h : InReached s) : Inv s := by
  obtain ⟨ops, out, hf, h⟩ := h
  obtain ⟨s', out', h1, h2, _⟩ := inRun_spec ops hf new new_inv []
  rw [h] at h1
  cases h1
  exact h2

/-- Take `n` messages. -/
def inDrain : Nat → In P → Res (In P × List (Nat × P))
  | 0, s => .ok (s, [])
  | n + 1, s => do
    let (s, x) ← extract s
    let (s, l) ← inDrain n s
    pure (s, x.toList ++ l)

theorem inDrain_spec {s : In P} (v : Inv s) (n : Nat) (hn : n = (waiting s).length) :
    ∃ s' out, inDrain n s = .ok (s', out) ∧ out.Perm (waiting s) ∧ Inv s' ∧ waiting s' = [] := by
  induction n generalizing s with
  | zero =>
    have : waiting s = [] := List.eq_nil_of_length_eq_zero hn.symm
    exact ⟨s, [], rfl, by rw [this], v, this⟩
  | succ n ih =>
    rcases extract_spec v with ⟨_, h0⟩ | ⟨r, p, s1, h1, hr, v1, h2, h3⟩
    · rw [waiting_nil.mpr (fun r _ => h0 r)] at hn; simp at hn
    · have hp := waiting_update hr h2 (fun x hx => (h3 x hx).symm)
      have hlen := hp.length_eq
      rw [List.length_append, List.length_singleton] at hlen
      obtain ⟨s', out, h4, h5, h6, h7⟩ := ih v1 (by omega)
      refine ⟨s', (r, p) :: out, by simp [inDrain, h1, h4], ?_, h6, h7⟩
      exact (List.Perm.cons _ h5).trans ((List.perm_append_singleton _ _).symm.trans hp.symm)

/-- C22, exactly once.  Whatever the history of appends and extractions, no operation fails; what was extracted and what is
still waiting is exactly what arrived, with the right senders; and extracting as many times as messages wait yields
them all, after which the queue reports empty. -/
theorem C22_exactly_once (ops : List (InOp P)) (hf : ∀ o ∈ ops, o.Fine) :
    ∃ s out, inRun new [] ops = .ok (s, out) ∧ (out ++ waiting s).Perm (arrived ops) ∧
      ∃ s' rest, inDrain (waiting s).length s = .ok (s', rest) ∧ (out ++ rest).Perm (arrived ops) ∧
        extract s' = .ok (s', none) := by
  obtain ⟨s, out, h1, v, h2⟩ := inRun_spec ops hf new new_inv []
  have hw : waiting (new : In P) = [] := waiting_nil.mpr (fun r _ => box_new r)
  rw [hw] at h2
  simp only [List.nil_append] at h2
  obtain ⟨s', rest, h3, h4, v', h5⟩ := inDrain_spec v _ rfl
  refine ⟨s, out, h1, h2, s', rest, h3, (h4.append_left out).trans h2, ?_⟩
  rcases extract_spec v' with ⟨h6, _⟩ | ⟨r, p, s1, _, hr, _, h7, _⟩
  · exact h6
  · have := waiting_nil.mp h5 r hr
    rw [this] at h7
    simp at h7

/-- C22, termination.  Extraction reports empty exactly when nothing waits. -/
theorem C22_empty_iff {s : In P} (h : InReached s) : (∃ s', extract s = .ok (s', none)) ↔ waiting s = [] := by
  rcases extract_spec h.inv with ⟨h1, h2⟩ | ⟨r, p, s1, h1, hr, _, h2, _⟩
  · exact ⟨fun _ => waiting_nil.mpr (fun r _ => h2 r), fun _ => ⟨s, h1⟩⟩
  · constructor
    · rintro ⟨s', h3⟩; rw [h1] at h3; simp at h3
    · intro h3
      rw [waiting_nil.mp h3 r hr] at h2
      simp at h2

/-- C22, order.  Each sender's messages form a stack: an append goes on top, an extraction takes the top of one sender's
stack and leaves the others alone. -/
theorem C22_lifo {s : In P} (h : InReached s) :
    (∀ r p, r < 65536 → ∃ s', append s r p = .ok s' ∧ box s' r = box s r ++ [p] ∧ ∀ x, x ≠ r → box s' x = box s x) ∧
    (∀ s' r p, extract s = .ok (s', some (r, p)) → box s r = box s' r ++ [p] ∧ ∀ x, x ≠ r → box s' x = box s x) := by
  constructor
  · intro r p hr
    obtain ⟨s', h1, _, h2⟩ := append_spec h.inv r hr p
    exact ⟨s', h1, h2⟩
  · intro s' r p he
    rcases extract_spec h.inv with ⟨h1, _⟩ | ⟨r', p', s1, h1, _, _, h2, h3⟩
    · rw [he] at h1; simp at h1
    · rw [he] at h1
      cases h1
      exact ⟨h2, h3⟩

/-- The documentation promises first-in first-out; two messages of one sender come out in the opposite order. -/
theorem C22_not_fifo : ∃ s, inRun (new : In Nat) [] [.append 7 100, .append 7 200, .extract, .extract] =
    .ok (s, [(7, 200), (7, 100)]) := ⟨_, rfl⟩

example : (inRun (new : In Nat) [] [.append 7 100, .append 27 5, .append 7 200, .append 1 9, .extract, .extract, .extract]) matches
    .ok (_, [(1, 9), (7, 200), (7, 100)]) := by rfl

end Incoming

section Packets

open Buzz.OutMsg Buzz.Packet

variable {B K D : Type} [DecidableEq K]

theorem fill_spec (pay : OutMsg.Msg B K D → Bytes) (hpay : ∀ m, pay m ≠ []) (S : Nat) (hS : 5 ≤ S) (fuel : Nat) (q : Q B K D)
    (v : Inv q) (hlen : (contents q).length < 4294967296) (hf : (contents q).length < fuel) (robot : Nat) (ps : List Bytes)
    (hdata : (put16 robot ++ ps.flatMap frame).length ≤ S) :
    ∃ q' ps' taken, fill pay S fuel q (put16 robot ++ ps.flatMap frame) = .ok (q', put16 robot ++ (ps ++ ps').flatMap frame) ∧
      contents q = taken ++ contents q' ∧ ps' = (taken.map pay).filter (fun p => p.length + 4 < S) ∧
      (put16 robot ++ (ps ++ ps').flatMap frame).length ≤ S ∧
      (∀ m rest, contents q' = m :: rest → (pay m).length + 4 < S ∧
        S < (put16 robot ++ (ps ++ ps').flatMap frame).length + (pay m).length + 2) := by
  induction fuel generalizing q ps with
  | zero => omega
  | succ f ih =>
    have hsz : size q = (contents q).length := by
      rw [length_contents] at hlen ⊢
      exact Nat.mod_eq_of_lt (by unfold U32; exact hlen)
    unfold fill
    cases hc : contents q with
    | nil =>
      refine ⟨q, [], [], ?_, by simp [hc], by simp, by simpa using hdata, by simp [hc]⟩
      rw [if_pos (by rw [hsz, hc]; rfl)]
      simp
    | cons m rest =>
      rw [if_neg (by rw [hsz, hc]; simp), first_eq, hc]
      simp only [List.head?_cons]
      obtain ⟨q1, h1, v1, h2, _⟩ := next_spec v
      rw [hc] at h2
      simp only [List.tail_cons] at h2
      have hl1 : (contents q1).length < 4294967296 := by rw [h2]; rw [hc] at hlen; simp at hlen; omega
      have hf1 : (contents q1).length < f := by rw [h2]; rw [hc] at hf; simp at hf; omega
      by_cases hfit : (pay m).length + 2 < S - 2
      · rw [if_pos hfit]
        by_cases hover : (put16 robot ++ ps.flatMap frame).length + ((pay m).length + 2) > S
        · rw [if_pos hover]
          refine ⟨q, [], [], by simp, by simp [hc], by simp, by simpa using hdata, ?_⟩
          intro m' rest' hm
          rw [hc] at hm
          cases hm
          simp only [List.append_nil]
          omega
        · rw [if_neg hover, h1, Res.ok_bind]
          have e : put16 robot ++ ps.flatMap frame ++ put16 (pay m).length ++ pay m =
              put16 robot ++ (ps ++ [pay m]).flatMap frame := by simp [frame]
          rw [e]
          obtain ⟨q', ps', taken, g1, g2, g3, g4, g5⟩ := ih q1 v1 hl1 hf1 (ps ++ [pay m]) (by
            rw [← e]
            simp only [List.length_append] at hover ⊢
            simp only [put16, List.length_cons, List.length_nil] at hover ⊢
            omega)
          refine ⟨q', pay m :: ps', m :: taken, ?_, by rw [← h2, g2]; simp, ?_, ?_, ?_⟩
          · rw [g1]; simp
          · rw [g3]
            simp only [List.map_cons]
            rw [List.filter_cons_of_pos]
            simp; omega
          · simpa using g4
          · simpa using g5
      · rw [if_neg hfit, h1, Res.ok_bind]
        obtain ⟨q', ps', taken, g1, g2, g3, g4, g5⟩ := ih q1 v1 hl1 hf1 ps hdata
        refine ⟨q', ps', m :: taken, g1, by rw [← h2, g2]; simp, ?_, g4, g5⟩
        rw [g3]
        simp only [List.map_cons]
        rw [List.filter_cons_of_neg]
        simp; omega

/-- C49.  For every queue state and packet size from 5 to 65535 bytes, the packet has exactly that size; its receiver gets the
sender's id and, intact and in order, the payloads of a prefix of the queue, except those that can never fit;
everything else stays queued, and the next message stays only because it does not fit any more. -/
theorem C49_packets {q : Q B K D} (h : Reached q) (pay : OutMsg.Msg B K D → Bytes) (hpay : ∀ m, pay m ≠ []) (S : Nat)
    (h5 : 5 ≤ S) (hS : S ≤ 65535) (robot : Nat) (hr : robot < 65536) (hlen : (contents q).length < 4294967296) (fuel : Nat)
    (hfuel : (contents q).length < fuel) :
    ∃ q' data taken, packet pay S fuel robot q = .ok (q', data) ∧ data.length = S ∧
      contents q = taken ++ contents q' ∧
      recv data = .ok (robot, (taken.map pay).filter (fun p => p.length + 4 < S)) ∧
      ∀ m rest, contents q' = m :: rest → (pay m).length + 4 < S ∧
        S < 2 + (((taken.map pay).filter (fun p => p.length + 4 < S)).map (fun p => p.length + 2)).sum + ((pay m).length + 2) := by
  obtain ⟨q', ps, taken, h1, h2, h3, h4, h6⟩ := fill_spec pay hpay S h5 fuel q h.inv.1 hlen hfuel robot []
    (by simp [put16]; omega)
  simp only [List.nil_append] at h1 h4 h6
  have hflen : ∀ l : List Bytes, (l.flatMap frame).length = (l.map (fun p => p.length + 2)).sum := by
    intro l
    induction l with
    | nil => rfl
    | cons p l ih => simp only [List.flatMap_cons, List.length_append, length_frame, ih, List.map_cons, List.sum_cons]
  refine ⟨q', put16 robot ++ ps.flatMap frame ++ List.replicate (S - (put16 robot ++ ps.flatMap frame).length) 0, taken, ?_, ?_, h2, ?_, ?_⟩
  · have h1' : fill pay S fuel q (put16 robot) = .ok (q', put16 robot ++ ps.flatMap frame) := by simpa using h1
    simp [packet, h1']
  · rw [List.length_append, List.length_replicate]; omega
  · rw [← h3]
    apply recv_frames robot hr
    · intro p hp
      rw [h3, List.mem_filter] at hp
      obtain ⟨hp1, hp2⟩ := hp
      obtain ⟨m, _, rfl⟩ := List.mem_map.mp hp1
      simp only [decide_eq_true_eq] at hp2
      exact ⟨hpay m, by omega⟩
    · rw [List.length_append, List.length_replicate]; omega
  · intro m rest hm
    obtain ⟨h7, h8⟩ := h6 m rest hm
    refine ⟨h7, ?_⟩
    rw [List.length_append, hflen, h3] at h8
    simp only [put16, List.length_cons, List.length_nil] at h8
    omega

/-- C49, hostile packets.  A packet of at least four bytes, whatever it contains, is read without undefined behaviour; the
payloads are not empty and no longer in total than the packet. -/
theorem C49_receive_safe (data : Bytes) (h : 4 ≤ data.length) :
    ∃ rid ps, recv data = .ok (rid, ps) ∧ (∀ p ∈ ps, p ≠ []) ∧ (ps.map List.length).sum ≤ data.length := by
  match data, h with
  | a :: b :: r, h =>
    simp only [List.length_cons] at h
    obtain ⟨ps, h1, h2, h3⟩ := recvLoop_total r (by omega) (r.length + 1) (by omega) []
    refine ⟨a.toNat * 256 + b.toNat, ps, ?_, h3, by simp only [List.length_cons]; omega⟩
    simp only [recv, pop16, Res.ok_bind, h1, List.nil_append, Res.pure_eq]

/-- A shorter packet is read past its end. -/
theorem C49_short_packet_undefined : recv [0, 7, 1] = .ub := rfl

set_option maxRecDepth 10000 in
/-- Three messages, the second too large for any packet: the receiver gets the first, the third stays queued. -/
example : ((outRun (new : Q Nat Nat Nat) [] [.broadcast 3, .broadcast 9, .broadcast 5]).bind fun (q, _) =>
    (packet (fun m => match m with | .broadcast n => List.replicate n 1 | _ => [1]) 10 10 300 q).bind fun (q, data) =>
      .ok (data, (recv data), q.bc)) = .ok ([1, 44, 0, 3, 1, 1, 1, 0, 0, 0], .ok (300, [[1, 1, 1]]), [5]) := by rfl

end Packets

end Buzz.Props
