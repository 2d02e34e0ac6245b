import Verif.OutMsg
import Verif.Msg

/-
Swarms: src/buzz/buzzswarm.c and the swarm messages in src/buzz/buzzvm.c.

Dictionaries with 16-bit keys are finite maps (C03).  Arguments have already been taken from the VM stack and checked; the
integer argument is truncated to 16 bits as in the code.
-/
namespace Buzz.Swarm

open Buzz.OutMsg Buzz.Msg

/-! ### What is known about other robots -/

/-- `struct buzzswarm_elem_s` (buzzswarm.c 28-31). -/
structure MElem where
  swarms : List Nat
  age : Nat
  deriving DecidableEq, Repr

/-- `buzzswarm_members_t`: robot id to element. -/
abbrev Members := List (Nat × MElem)

/-- `buzzswarm_members_join` (71-94). -/
def mjoin (m : Members) (robot swarm : Nat) : Members :=
  match FMap.get m robot with
  | some e =>
    if e.swarms.any (· == swarm) then FMap.set m robot ⟨e.swarms, 0⟩
    else FMap.set m robot ⟨e.swarms ++ [swarm], 0⟩
  | none => FMap.set m robot ⟨[swarm], 0⟩

/-- `buzzswarm_members_leave` (99-120): the first match goes. -/
def mleave (m : Members) (robot swarm : Nat) : Members :=
  match FMap.get m robot with
  | some e =>
    let l := e.swarms.erase swarm
    if l.isEmpty then FMap.del m robot else FMap.set m robot ⟨l, 0⟩
  | none => m

/-- `buzzswarm_members_refresh` (125-144). -/
def mrefresh (m : Members) (robot : Nat) (swarms : List Nat) : Members := FMap.set m robot ⟨swarms, 0⟩

/-- `buzzswarm_members_isrobotin` (149-164). -/
def isIn (m : Members) (robot swarm : Nat) : Bool :=
  match FMap.get m robot with
  | none => false
  | some e => e.swarms.any (· == swarm)

/-- `MEMBERSHIP_AGE_MAX` (210). -/
def ageMax : Nat := 50

/-- `buzzswarm_members_update` (236-248) with `check_swarm_elem` (220-234).  The age is 16 bits wide. -/
def update (m : Members) : Members :=
  (m.map (fun p => (p.1, (⟨p.2.swarms, (p.2.age + 1) % U16⟩ : MElem)))).filter (fun p => decide (p.2.age ≤ ageMax))

/-! ### Swarm messages -/

/-- The payload of a swarm list message (buzzoutmsg.c 379-394). -/
def payList (ids : List Nat) : Bytes :=
  ser8 1 ++ ser16 .little (ids.length % U16) ++ (ids.take (ids.length % U16)).flatMap (ser16 .little)

/-- The payload of a join or leave message (buzzoutmsg.c 419-438); the type codes are 4 and 5 (buzzmsg.h 14-22). -/
def paySwarm (t : SType) (id : Nat) : Bytes := ser8 (match t with | .join => 4 | .leave => 5) ++ ser16 .little id

/-- The loop over the ids of a list message (buzzvm.c 445-451): the ids stored in the array.  `buzzdarray_makeslot` has already
added a zeroed element when a read fails. -/
def readIds (buf : Bytes) : Nat → Nat → Res (List Nat)
  | 0, _ => .ok []
  | n + 1, pos => do
    let r ← deser16 .little buf pos
    match r with
    | none => pure [0]
    | some (id, pos) => do
      let ids ← readIds buf n pos
      pure (id :: ids)

/-- The cases `BUZZMSG_SWARM_LIST`, `JOIN` and `LEAVE` (buzzvm.c 250, 433-479) for a message from robot `rid`; the
first byte is the type.  Messages of other types do not touch the members. -/
def handle (m : Members) (rid : Nat) (buf : Bytes) : Res Members := do
  let t ← rd buf 0
  let r ← deser16 .little buf 1
  match r with
  | none => pure m
  | some (n, pos) =>
    match t with
    | 1 =>
      if n < 1 then pure m else do
        let ids ← readIds buf n pos
        pure (mrefresh m rid ids)
    | 4 => pure (mjoin m rid n)
    | 5 => pure (mleave m rid n)
    | _ => pure m

/-! ### The robot's own swarms -/

variable {B K D : Type} [DecidableEq K]

/-- The state the swarm methods use: `vm->swarms` (id to membership byte), `vm->swarmstack` (top first), output queue. -/
structure St (B K D : Type) where
  swarms : List (Nat × Nat)
  stack : List Nat
  out : Q B K D

/-- The outcome of a method: a new state and the value returned, or `BUZZVM_ERROR_SWARM`. -/
inductive Out (σ : Type) where
  | ret (s : σ) (v : Option Int)
  | error
  deriving DecidableEq, Repr

/-- Conversion of the integer argument to `uint16_t`. -/
def u16 (i : Int) : Nat := (i % 65536).toNat

/-- Conversion to `uint8_t`. -/
def u8 (i : Int) : Nat := (i % 256).toNat

/-- Store a membership byte, then queue a message if given (`buzzoutmsg_queue_append_swarm_joinleave`). -/
def store (s : St B K D) (id v : Nat) (msg : Option SType) : Res (St B K D) :=
  match msg with
  | none => .ok { s with swarms := FMap.set s.swarms id v }
  | some t => do
    let q ← appendSwarm s.out t id
    pure { s with swarms := FMap.set s.swarms id v, out := q }

/-- `buzzswarm_create` (290-305).  The value returned stands for the table with this id. -/
def create (s : St B K D) (i : Int) : St B K D × Nat :=
  match FMap.get s.swarms (u16 i) with
  | some _ => (s, u16 i)
  | none => ({ s with swarms := FMap.set s.swarms (u16 i) 0 }, u16 i)

/-- `buzzswarm_id` (310-337).  `arg` is the argument seen: only with two or more arguments (`buzzvm_lnum(vm) > 1`).  Position 0
reads past the end of the array. -/
def swarmId (s : St B K D) (arg : Option Int) : Res (Option Int) :=
  if s.stack.isEmpty then .ok none
  else
    let pos := (match arg with | none => 1 | some i => u16 i)
    let pos := if pos > s.stack.length then s.stack.length else pos
    if pos = 0 then .ub
    else match s.stack[pos - 1]? with
      | some i => .ok (some i)
      | none => .ub

/-- `buzzswarm_others` (342-372): the swarm `i2` holds the robots not in `id1`. -/
def others (s : St B K D) (id1 : Nat) (i2 : Int) : Res (Out (St B K D)) :=
  match FMap.get s.swarms id1 with
  | none => .ok .error
  | some x => do
    let v := if x ≠ 0 then 0 else 1
    let s ← store s (u16 i2) v (if v ≠ 0 then some .join else none)
    pure (.ret s (some (u16 i2)))

/-- `buzzswarm_join` (377-398). -/
def join (s : St B K D) (id : Nat) : Res (Out (St B K D)) :=
  match FMap.get s.swarms id with
  | none => .ok .error
  | some _ => do
    let s ← store s id 1 (some .join)
    pure (.ret s none)

/-- `buzzswarm_leave` (403-424). -/
def leave (s : St B K D) (id : Nat) : Res (Out (St B K D)) :=
  match FMap.get s.swarms id with
  | none => .ok .error
  | some _ => do
    let s ← store s id 0 (some .leave)
    pure (.ret s none)

/-- `buzzswarm_in` (429-445). -/
def in_ (s : St B K D) (id : Nat) : Out (St B K D) :=
  match FMap.get s.swarms id with
  | none => .error
  | some x => .ret s (some x)

/-- `buzzswarm_select` (450-476): the condition is truncated to 8 bits. -/
def select (s : St B K D) (id : Nat) (c : Int) : Res (Out (St B K D)) :=
  match FMap.get s.swarms id with
  | none => .ok .error
  | some _ => do
    let s ← store s id (u8 c) (some (if u8 c ≠ 0 then .join else .leave))
    pure (.ret s none)

/-- `buzzswarm_check` (523-549) on a valid swarm table: an unknown swarm counts as one the robot is not in. -/
def check (s : St B K D) (id : Nat) : Bool :=
  match FMap.get s.swarms id with
  | some x => x ≠ 0
  | none => false

/-- The three set operations (586-614). -/
inductive SetOp where
  | union
  | intersection
  | difference
  deriving DecidableEq, Repr

/-- The membership condition passed to the boilerplate macro (591, 602, 613). -/
def SetOp.cond : SetOp → Bool → Bool → Bool
  | .union, a, b => a || b
  | .intersection, a, b => a && b
  | .difference, a, b => a && !b

/-- `buzzswarm_set_operation_boilerplate` (554-581). -/
def setOp (s : St B K D) (o : SetOp) (i : Int) (id1 id2 : Nat) : Res (Out (St B K D)) := do
  let v := o.cond (check s id1) (check s id2)
  let s ← store s (u16 i) (if v then 1 else 0) (if v then some .join else none)
  pure (.ret s (some (u16 i)))

end Buzz.Swarm
