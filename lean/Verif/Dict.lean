import Verif.Basic

/-
Model of /repo/src/buzz/buzzdict.c.

A bucket is `NULL` (`none`) or a dynamic array of entries, here the list of its entries (that the
dynamic array behaves as a list is property C01).  Keys and data are values: `buzzdict_entry_new` copies
`key_size`/`data_size` bytes.  The hash and comparison callbacks are parameters; only the test
`keycmpf(key, e->key) == 0` is used by the C code, so the comparison appears as the Boolean `eqk`, with the
searched key as first argument.  The calls of `dstryf` are represented by the list of entries it was applied to.
-/
namespace Buzz.Dict

variable {K V : Type}

/-- `struct buzzdict_s` (buzzdict.h): `num_buckets` is the length of `buckets`; `size` is `uint32_t`. -/
structure Dict (K V : Type) where
  buckets : List (Option (List (K × V)))
  size : Nat
  deriving Repr

/-- `buzzdict_new` (buzzdict.c 28-47). -/
def new (n : Nat) : Dict K V := { buckets := List.replicate n none, size := 0 }

section
variable (hash : K → Nat) (eqk : K → K → Bool)

/-- `hashf(key) % num_buckets` (80, 99, 138); modulo zero is undefined. -/
def slot (d : Dict K V) (k : K) : Res Nat :=
  if d.buckets.length = 0 then .ub else .ok (hash k % d.buckets.length)

/-- Access to `buckets[h]`. -/
def bucket (d : Dict K V) (h : Nat) : Res (Option (List (K × V))) :=
  match d.buckets[h]? with
  | some b => .ok b
  | none => .ub

/-- `buzzdict_rawget` (76-90); `none` is the NULL pointer. -/
def rawget (d : Dict K V) (k : K) : Res (Option V) := do
  let h ← slot hash d k
  let b ← bucket d h
  match b with
  | none => pure none
  | some es => pure ((es.find? (fun e => eqk k e.1)).map (·.2))

/-- `buzzdict_exists` (buzzdict.h). -/
def isIn (d : Dict K V) (k : K) : Res Bool := do
  let r ← rawget hash eqk d k
  pure r.isSome

/-- `buzzdict_set` (95-129).  Second component: entries passed to `dstryf`. -/
def set (d : Dict K V) (k : K) (v : V) : Res (Dict K V × List (K × V)) := do
  let h ← slot hash d k
  let b ← bucket d h
  match b with
  | none =>
    pure ({ buckets := d.buckets.set h (some [(k, v)]), size := (d.size + 1) % U32 }, [])
  | some es =>
    match es.find? (fun e => eqk k e.1) with
    | none =>
      pure ({ buckets := d.buckets.set h (some (es ++ [(k, v)])), size := (d.size + 1) % U32 }, [])
    | some e =>
      let size := (d.size + (U32 - 1)) % U32
      pure ({ buckets := d.buckets.set h (some (es.eraseP (fun e => eqk k e.1) ++ [(k, v)])),
              size := (size + 1) % U32 }, [e])

/-- `buzzdict_remove` (134-158).  Returned: new dictionary, the C return value, entries passed to `dstryf`. -/
def remove (d : Dict K V) (k : K) : Res (Dict K V × Bool × List (K × V)) := do
  let h ← slot hash d k
  let b ← bucket d h
  match b with
  | none => pure (d, false, [])
  | some es =>
    match es.find? (fun e => eqk k e.1) with
    | none => pure (d, false, [])
    | some e =>
      let es' := es.eraseP (fun e => eqk k e.1)
      let b' := if es'.isEmpty then none else some es'
      pure ({ buckets := d.buckets.set h b', size := (d.size + (U32 - 1)) % U32 }, true, [e])

end

/-- `buzzdict_foreach` (163-178): the entries visited, in order. -/
def entries (d : Dict K V) : List (K × V) := d.buckets.flatMap (fun b => b.getD [])

/-- `buzzdict_destroy` (52-71): the entries passed to `dstryf`, in order. -/
def destroy (d : Dict K V) : List (K × V) := d.buckets.flatMap (fun b => b.getD [])

end Buzz.Dict
