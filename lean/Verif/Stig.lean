import Verif.Broadcast
import Verif.LibSim
import Verif.Vstig

/-
Virtual stigmergy on the machine: the C functions of buzzvstig.c that scripts call, the queueing of messages (buzzoutmsg.c 311-360), the payload of a
message (buzzoutmsg.c 393-418) and its arrival (buzzvm.c 276-432).  `me` is `vm->robot`.

Simplifications.  The dictionary `vm->outmsgs->vstig` that finds the message waiting for a key is not stored: the queues are searched (that it agrees
with the queues is C20).  A conflict manager and a lost-conflict hook are parameters of the arrival: what the call of the closure gives
(buzzvstig.c 413-446, 476-494).
-/
namespace Buzz.VM

open Buzz.F32 Buzz.Msg Buzz.Heap Buzz.HeapWire Buzz.OutMsg

/-- `id_get` (buzzvstig.c 16-20): the field `id` of the table the method was called on stays on the stack.  What is no integer is read as one, which is
undefined. -/
def stigId (E : Env) (vm : VM) : Res (VM × Nat) := do
  let vm ← lload vm 0
  let vm ← pushName "id" vm
  let vm ← tget E vm
  let o ← peek vm 1
  match o with
  | .int v => pure (vm, (v % 65536).toNat)
  | _ => .ub

/-- The message about a key that waits in a queue (buzzoutmsg.c 320-326). -/
def stigWaiting (sc : Bytes → Bytes → Int) (o : Other) (id : Nat) (k : Obj) : Option StigMsg :=
  (o.puts ++ o.queries).find? (fun m => m.id == id && Table.keq sc k m.k)

/-- The queue without it (buzzoutmsg.c 353-356). -/
def stigDrop (sc : Bytes → Bytes → Int) (id : Nat) (k : Obj) (l : List StigMsg) : List StigMsg :=
  l.filter (fun m => !(m.id == id && Table.keq sc k m.k))

/-- The queues with a new message instead of the one about the same key (buzzoutmsg.c 352-358). -/
def stigPush (sc : Bytes → Bytes → Int) (t : VType) (m : StigMsg) (o : Other) : Other :=
  { o with
    puts := stigDrop sc m.id m.k o.puts ++ (if t = .put then [m] else [])
    queries := stigDrop sc m.id m.k o.queries ++ (if t = .query then [m] else []) }

/-- `buzzoutmsg_queue_append_vstig` (buzzoutmsg.c 311-360) with `buzzvstig_elem_clone` (buzzvstig.c 73-79): key and value are cloned, in this order,
unless the waiting message is at least as recent. -/
def stigQueue (E : Env) (t : VType) (id : Nat) (e : VElem) (vm : VM) : Res VM := do
  let km ← deref vm.heap e.key
  let k := objOf e.key km.cell
  let _ ← Obj.tableHash k
  if (stigWaiting E.sc vm.other id k).any (fun m => decide (e.ts ≤ m.e.ts)) then pure vm
  else do
    let p ← clone E.sc (vm.heap.objs.length + 1) vm.heap e.key
    let q ← clone E.sc (p.1.objs.length + 1) p.1 e.data
    pure { vm with heap := q.1, other := stigPush E.sc t ⟨id, k, ⟨p.2, q.2, e.ts, e.robot⟩⟩ vm.other }

/-- Replaces a stigmergy. -/
def setStig (id : Nat) (st : Stig) (vm : VM) : VM := { vm with other := { vm.other with vstigs := FMap.set vm.other.vstigs id st } }

/-- The first entry with the key, changed in place. -/
def touchIn (p : Obj → Bool) (f : VElem → VElem) : List (Obj × VElem) → List (Obj × VElem)
  | [] => []
  | e :: es => if p e.1 then (e.1, f e.2) :: es else e :: touchIn p f es

/-- The element a pointer got from `buzzdict_get` points to, changed in place. -/
def touch (sc : Bytes → Bytes → Int) (t : Table.Tbl VElem) (k : Obj) (f : VElem → VElem) : Res (Table.Tbl VElem) := do
  let h ← Dict.slot Table.hashN t k
  let b ← Dict.bucket t h
  pure { t with buckets := t.buckets.set h (b.map (touchIn (Table.keq sc k) f)) }

/-- The part of `buzzvstig_put` after the arguments are loaded (buzzvstig.c 203-236).  The stored value is the object itself, the message has a copy. -/
def stigStore (E : Env) (me id ka va : Nat) (k v : Obj) (vm : VM) : Res VM :=
  match FMap.get vm.other.vstigs id with
  | none => pure vm
  | some st => do
    let x ← Table.get E.sc st.data k
    match x with
    | some x =>
      if v ≠ .nil then do
        let d ← touch E.sc st.data k (fun x => { x with data := va, ts := (x.ts + 1) % U16, robot := me })
        stigQueue E .put id ⟨ka, va, (x.ts + 1) % U16, me⟩ (setStig id { st with data := d } vm)
      else do
        let vm ← stigQueue E .put id ⟨ka, va, (x.ts + 1) % U16, me⟩ vm
        let d ← Table.remove E.sc st.data k
        pure (setStig id { st with data := d } vm)
    | none =>
      if v ≠ .nil then do
        let d ← Table.set E.sc st.data k ⟨ka, va, 1, me⟩
        stigQueue E .put id ⟨ka, va, 1, me⟩ (setStig id { st with data := d } vm)
      else pure vm

/-- `buzzvstig_put` (buzzvstig.c 191-239). -/
def stigPut (E : Env) (me : Nat) (vm : VM) : Res VM := do
  let n ← lnum vm
  if n ≠ 2 then pure (setErr vm .lnum)
  else do
    let r ← stigId E vm
    let vm ← lload r.1 1
    let ka ← peekAddr vm 1
    let k ← peek vm 1
    let vm ← lload vm 2
    let va ← peekAddr vm 1
    let v ← peek vm 1
    let vm ← stigStore E me r.2 ka va k v vm
    ret0 vm

/-- `buzzvstig_get` (buzzvstig.c 307-345). -/
def stigGet (E : Env) (me : Nat) (vm : VM) : Res VM := do
  let n ← lnum vm
  if n ≠ 1 then pure (setErr vm .lnum)
  else do
    let r ← stigId E vm
    let vm ← lload r.1 1
    let ka ← peekAddr vm 1
    let k ← peek vm 1
    match FMap.get vm.other.vstigs r.2 with
    | none => ret1 (pushNil vm)
    | some st => do
      let x ← Table.get E.sc st.data k
      match x with
      | some x => do
        let vm ← stigQueue E .query r.2 ⟨ka, x.data, x.ts, x.robot⟩ (pushAddr vm x.data)
        ret1 vm
      | none => do
        let a ← peekAddr (pushNil vm) 1
        let vm ← stigQueue E .query r.2 ⟨ka, a, 0, me⟩ (pushNil vm)
        ret1 vm

/-- `buzzvstig_size` (buzzvstig.c 286-302). -/
def stigSize (E : Env) (vm : VM) : Res VM := do
  let n ← lnum vm
  if n ≠ 0 then pure (setErr vm .lnum)
  else do
    let r ← stigId E vm
    match FMap.get r.1.other.vstigs r.2 with
    | none => ret1 (pushInt r.1 0)
    | some st => ret1 (pushInt r.1 (intOfU32 (st.data.size % 4294967296)))

/-- A field of the table on top of the stack (buzzvstig.c 10-14, 173-176). -/
def stigField (E : Env) (x : String) (p : VM → VM) (vm : VM) : Res VM := do
  let vm ← pushName x (dup vm)
  tput E (p vm)

/-- The methods of a stigmergy, in the order of their registration (buzzvstig.c 177-182). -/
def stigMethods : List String := ["foreach", "size", "put", "get", "onconflict", "onconflictlost"]

/-- `buzzvstig_create` (buzzvstig.c 155-186).  `buzzvm_function_register` gives a function the same position each time: `base` is that of the first
method. -/
def stigCreate (E : Env) (base : Nat) (vm : VM) : Res VM := do
  let n ← lnum vm
  if n ≠ 1 then pure (setErr vm .lnum)
  else do
    let vm ← lload vm 1
    let o ← peek vm 1
    match o with
    | .int v => do
      let id := (v % 65536).toNat
      let vm := pop vm
      let vm := { vm with nfuns := max vm.nfuns (base + 6),
                          other := { vm.other with vstigs := FMap.set (FMap.del vm.other.vstigs id) id ⟨Table.new, none, none⟩ } }
      let vm ← stigField E "id" (fun vm => pushInt vm id) (pushT vm)
      let vm ← stigMethods.zipIdx.foldlM (fun vm x => stigField E x.1 (fun vm => pushC vm ((base + x.2 : Nat) : Int) false) vm) vm
      ret1 vm
    | _ => pure (setErr vm .type)

/-- `buzzvstig_onconflict` (buzzvstig.c 350-373), and `buzzvstig_onconflictlost` (378-401) for `lost`.  The closure set before is an object of the heap,
and is freed with `free` although the heap keeps its address; this is undefined here. -/
def stigManager (E : Env) (lost : Bool) (vm : VM) : Res VM := do
  let n ← lnum vm
  if n ≠ 1 then pure (setErr vm .lnum)
  else do
    let r ← stigId E vm
    match FMap.get r.1.other.vstigs r.2 with
    | none => ret0 (pushNil r.1)
    | some st => do
      let vm ← lload r.1 1
      let o ← peek vm 1
      match o with
      | .clo a =>
        if (if lost then st.onconflictlost else st.onconflict).isSome then .ub
        else do
          let p ← clone E.sc (vm.heap.objs.length + 1) vm.heap a
          ret0 (setStig r.2 (if lost then { st with onconflictlost := some p.2 } else { st with onconflict := some p.2 }) { vm with heap := p.1 })
      | _ => pure (setErr vm .type)

/-- The stigmergy functions among the C functions of a machine: `stigmergy.create` is the 28th function registered (`Install.library`), the methods follow
from `base` on; `foreach` is not among those modelled. -/
def stigFuns (E : Env) (me base : Nat) (other : CFuns) : CFuns := fun n vm =>
  if n = 27 then stigCreate E base vm
  else if n = base + 1 then stigSize E vm
  else if n = base + 2 then stigPut E me vm
  else if n = base + 3 then stigGet E me vm
  else if n = base + 4 then stigManager E false vm
  else if n = base + 5 then stigManager E true vm
  else other n vm

/-- The type byte of a message (buzzmsg.h 14-22). -/
def stigTag : VType → Nat
  | .put => 2
  | .query => 3

/-- The payload made of a queued message (buzzoutmsg.c 393-418) with `buzzvstig_elem_serialize` (buzzvstig.c 118-125); `d` bounds the depth of the objects. -/
def stigPayload (h : Heap) (d : Nat) (t : VType) (m : StigMsg) : Res Bytes := do
  let k ← hser h d m.e.key
  let v ← hser h d m.e.data
  pure (ser8 (stigTag t) ++ ser16 .little m.id ++ k ++ v ++ ser16 .little m.e.ts ++ ser16 .little m.e.robot)

/-- The removal of a sent stigmergy message (buzzoutmsg.c 457-475). -/
def stigSent (t : VType) (o : Other) : Other :=
  match t with
  | .put => { o with puts := o.puts.tail }
  | .query => { o with queries := o.queries.tail }

/-- `buzzvstig_onconflict_call` (buzzvstig.c 406-471): without a manager a clone of the winner, with one `mgr` says what comes back. -/
def stigResolve (E : Env) (mgr : Nat → VElem → VElem → VM → Res (VM × Option VElem)) (st : Stig) (l v : VElem) (vm : VM) : Res (VM × Option VElem) :=
  match st.onconflict with
  | some c => mgr c l v vm
  | none => do
    let a ← deref vm.heap l.data
    let b ← deref vm.heap v.data
    let e := if objOf l.data a.cell = .nil ↔ objOf v.data b.cell = .nil then (if l.robot > v.robot then l else v)
      else if objOf l.data a.cell ≠ .nil then l else v
    let p ← clone E.sc (vm.heap.objs.length + 1) vm.heap e.data
    pure ({ vm with heap := p.1 }, some { e with data := p.2 })

/-- Stores an entry under a key object (`buzzvstig_store`, buzzvstig.h 195). -/
def stigSet (E : Env) (id : Nat) (st : Stig) (k : Obj) (e : VElem) (vm : VM) : Res VM := do
  let d ← Table.set E.sc st.data k e
  pure (setStig id { st with data := d } vm)

/-- The timestamp of an entry made by a manager: the one of the local entry `l` after the call (buzzvstig.c 449). -/
def stigStamp (st : Stig) (l c : VElem) : VElem := if st.onconflict.isSome then { c with ts := l.ts } else c

/-- The conflict branch of both handlers (buzzvm.c 306-334, 395-424); `hook` is the call of the lost-conflict closure with the saved entry.  A manager may
change the stigmergy: the entry is looked up again after it.  If it is gone the C code uses freed memory. -/
def stigConflict (E : Env) (me : Nat) (mgr : Nat → VElem → VElem → VM → Res (VM × Option VElem)) (hook : Nat → VElem → VM → Res VM)
    (id : Nat) (st : Stig) (k : Obj) (l v : VElem) (vm : VM) : Res VM := do
  let r ← stigResolve E mgr st l v vm
  match r.2, FMap.get r.1.other.vstigs id with
  | none, _ => pure r.1
  | some _, none => .ub
  | some c, some st' => do
    let x ← Table.get E.sc st'.data k
    match x with
    | none => .ub
    | some l => do
      let c := stigStamp st l c
      let vm ← if c.robot ≠ me ∧ l.robot = me then do
          let p ← clone E.sc (r.1.heap.objs.length + 1) r.1.heap l.data
          let vm ← stigSet E id st' k { c with key := v.key } { r.1 with heap := p.1 }
          match st'.onconflictlost with
          | some h => hook h { l with key := v.key, data := p.2 } vm
          | none => pure vm
        else stigSet E id st' k { c with key := v.key } r.1
      stigQueue E .put id { c with key := v.key } vm

/-- `BUZZMSG_VSTIG_PUT` and `BUZZMSG_VSTIG_QUERY` (buzzvm.c 287-341, 360-430) after the message has been read: `v` is the entry with the key object. -/
def stigRecv (E : Env) (me : Nat) (mgr : Nat → VElem → VElem → VM → Res (VM × Option VElem)) (hook : Nat → VElem → VM → Res VM)
    (t : VType) (id : Nat) (v : VElem) (vm : VM) : Res VM :=
  match FMap.get vm.other.vstigs id with
  | none =>
    match t with
    | .put => pure vm
    | .query => stigQueue E .query id v vm
  | some st => do
    let km ← deref vm.heap v.key
    let k := objOf v.key km.cell
    let x ← Table.get E.sc st.data k
    match x with
    | none => do
      let dm ← deref vm.heap v.data
      if t = .query ∧ objOf v.data dm.cell = .nil then stigQueue E .query id v vm
      else do
        let vm ← stigSet E id st k v vm
        stigQueue E .put id v vm
    | some l =>
      if l.ts < v.ts then do
        let vm ← stigSet E id st k v vm
        stigQueue E .put id v vm
      else if t = .query ∧ l.ts > v.ts then stigQueue E .put id { l with key := v.key } vm
      else if l.ts = v.ts ∧ l.robot ≠ v.robot then stigConflict E me mgr hook id st k l v vm
      else pure vm

/-- Both messages from the bytes (buzzvm.c 276-300, 344-359) with `buzzvstig_elem_deserialize` (buzzvstig.c 130-150): a malformed message is dropped.  A
put for an unknown stigmergy is dropped before it is read. -/
def onStig (E : Env) (me : Nat) (mgr : Nat → VElem → VElem → VM → Res (VM × Option VElem)) (hook : Nat → VElem → VM → Res VM)
    (t : VType) (buf : Bytes) (vm : VM) : Res VM := do
  let i ← deser16 .little buf 1
  match i with
  | none => pure vm
  | some (id, p) =>
    if t = .put ∧ (FMap.get vm.other.vstigs id).isNone then pure vm
    else do
      let k ← hdeser E.sc buf (buf.length + 1) p vm.heap vm.strings
      match k.data, k.pos with
      | some ka, some p => do
        let d ← hdeser E.sc buf (buf.length + 1) p k.h k.sm
        let vm := { vm with heap := d.h, strings := d.sm }
        match d.data, d.pos with
        | some va, some p => do
          let ts ← deser16 .little buf p
          match ts with
          | none => pure vm
          | some (ts, p) => do
            let r ← deser16 .little buf p
            match r with
            | none => pure vm
            | some (r, _) => stigRecv E me mgr hook t id ⟨ka, va, ts, r⟩ vm
        | _, _ => pure vm
      | _, _ => pure { vm with heap := k.h, strings := k.sm }

end Buzz.VM
