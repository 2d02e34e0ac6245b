import Verif.InstallRun

/-
The outcome of the registration in the empty state.
-/
namespace Buzz.Sim

open Buzz.Msg Buzz.VM
open Buzz.Lang (Thing Scope St Regs valueOf entryOf globalVal)

/-- The registration in the empty state. -/
def base0 : Lang.Out Regs := Lang.regs (.user 0) library ⟨none, [], 0, none⟩ ⟨[], [], .top⟩

/-- Its outcome. -/
def base : St :=
  match base0 with
  | .ok _ s => s
  | _ => ⟨[], [], .top⟩

/-- No value is left on the stack, and there are as many functions as names. -/
def baseOk : Bool :=
  match base0 with
  | .ok r _ => r.ws.isEmpty && r.nf == 65
  | _ => false

theorem baseOk_true : baseOk = true := by decide +kernel

/-- A field of a table. -/
def field (s : St) (v : Obj) (x : String) : Option Obj :=
  match v with
  | .tab l =>
    match s.store[l]? with
    | some (.tab es) => entryOf (.str 0 (ascii x)) es
    | _ => none
  | _ => none

/-- A function by the name of the library it is in and its own: the object it is called on, and the function. -/
def member (s : St) (name : String × String) : Option (Obj × Obj) :=
  if name.1 = "" then some (.nil, globalVal (ascii name.2) s)
  else if name.1 = "math.rng" then
    (field s (globalVal (ascii "math") s) "rng").bind fun t => (field s t name.2).map fun f => (t, f)
  else (field s (globalVal (ascii name.1) s) name.2).map fun f => (globalVal (ascii name.1) s, f)

/-- The global variables of the library. -/
def libGlobals : List String :=
  ["neighbors", "id", "type", "int", "float", "clone", "size", "foreach", "map", "reduce", "filter", "isnil", "isint", "isfloat", "isstring", "istable", "isclosure", "isuserdata",
    "stigmergy", "swarm", "math", "io", "string"]

/-- `s1` is `s0` with the library. -/
structure Standard (robot : Nat) (s0 s1 : St) : Prop where
  funs : ∀ n name, Lang.libNames[n]? = some name → ∃ self l, member s1 name = some (self, .clo l) ∧ s1.store[l]? = some (.host n [self])
  id : globalVal (ascii "id") s1 = .int (robot : Int)
  pi : field s1 (globalVal (ascii "math") s1) "pi" = some (.flt (ofBits 0x40490FDB))
  errno : field s1 (globalVal (ascii "io") s1) "errno" = some (.int 0)
  error : field s1 (globalVal (ascii "io") s1) "error_message" = some (.str 0 (ascii "No error"))
  unseen : field s1 (globalVal (ascii "neighbors") s1) "poses" = none
  others : ∀ x, x ∉ libGlobals.map ascii → globalVal x s1 = globalVal x s0
  keys : ∀ x ∈ libGlobals, ∀ l es, globalVal (ascii x) s1 = .tab l → s1.store[l]? = some (.tab es) → ∀ e ∈ es, ∃ k, e.1 = .str 0 k
  old : ∀ l, l < s0.store.length → s1.store[l]? = s0.store[l]?
  scope : s1.scope = s0.scope

/-- Whether the `n`th function is in its place. -/
def inPlace (n : Nat) : Bool :=
  match Lang.libNames[n]? with
  | none => true
  | some name =>
    match member base name with
    | some (self, .clo l) =>
      match base.store[l]? with
      | some (.host m [v]) => m == n && v == self
      | _ => false
    | _ => false

theorem inPlace_all : ∀ n ∈ List.range 65, inPlace n = true := by decide +kernel

theorem base_globals : base.globals.map Prod.fst = (libGlobals.map ascii).reverse := by decide +kernel

/-- The other values. -/
def otherOk : Bool :=
  (globalVal (ascii "id") base == .user 0) && (field base (globalVal (ascii "math") base) "pi" == some (.flt (ofBits 0x40490FDB))) &&
  (field base (globalVal (ascii "io") base) "errno" == some (.int 0)) && (field base (globalVal (ascii "io") base) "error_message" == some (.str 0 (ascii "No error"))) &&
  (field base (globalVal (ascii "neighbors") base) "poses" == none)

theorem otherOk_true : otherOk = true := by decide +kernel

/-- There is a table `neighbors`. -/
def nbrsOk : Bool :=
  match globalVal (ascii "neighbors") base with
  | .tab _ => true
  | _ => false

theorem nbrsOk_true : nbrsOk = true := by decide +kernel

/-- The keys of the table of a global variable are strings. -/
def keysOk (x : String) : Bool :=
  match globalVal (ascii x) base with
  | .tab l =>
    match base.store[l]? with
    | some (.tab es) => es.all fun e => match e.1 with | .str 0 _ => true | _ => false
    | _ => true
  | _ => true

theorem keysOk_all : ∀ x ∈ libGlobals, keysOk x = true := by decide +kernel

theorem libNames_length : Lang.libNames.length = 65 := by decide +kernel

theorem names_global : ∀ name ∈ Lang.libNames, name.1 = "math.rng" ∨ name.1 ∈ libGlobals ∨ (name.1 = "" ∧ name.2 ∈ libGlobals) := by decide +kernel

variable {id : Obj} {s0 sb s : St}

theorem valueOf_some {x : Bytes} : ∀ {g : List (Bytes × Obj)}, x ∈ g.map Prod.fst → (valueOf x g).isSome
  | (y, v) :: g, h => by
    show (if y = x then some v else valueOf x g).isSome
    by_cases hy : y = x
    · rw [if_pos hy]; rfl
    · rw [if_neg hy]
      refine valueOf_some ?_
      rcases List.mem_cons.1 h with h | h
      · exact absurd h.symm hy
      · exact h

theorem valueOf_none {x : Bytes} : ∀ {g : List (Bytes × Obj)}, x ∉ g.map Prod.fst → valueOf x g = none
  | [], _ => rfl
  | (y, v) :: g, h => by
    show (if y = x then some v else valueOf x g) = none
    rw [if_neg (fun hy => h (List.mem_cons.2 (Or.inl hy.symm)))]
    exact valueOf_none (fun hm => h (List.mem_cons.2 (Or.inr hm)))

theorem Moved.globalVal (h : Moved id s0 sb s) {x : Bytes} (hx : x ∈ sb.globals.map Prod.fst) : globalVal x s = mvO s0.store.length id (globalVal x sb) := by
  unfold Lang.globalVal
  rw [h.globals]
  have := valueOf_some hx
  cases hv : valueOf x sb.globals with
  | none => rw [hv] at this; cases this
  | some v => rfl

theorem Moved.others (h : Moved id s0 sb s) {x : Bytes} (hx : x ∉ sb.globals.map Prod.fst) : Lang.globalVal x s = Lang.globalVal x s0 := by
  unfold Lang.globalVal
  rw [h.globals, valueOf_none hx]
  rfl

theorem entryOf_mv {n : Nat} {k : Obj} : ∀ {es : List (Obj × Obj)}, entryOf k (es.map (fun e => (e.1, mvO n id e.2))) = (entryOf k es).map (mvO n id)
  | [] => rfl
  | (k', v) :: es => by
    show (if k' = k then some (mvO n id v) else _) = Option.map _ (if k' = k then some v else entryOf k es)
    by_cases hk : k' = k
    · rw [if_pos hk, if_pos hk]; rfl
    · rw [if_neg hk, if_neg hk]
      exact entryOf_mv

theorem Moved.field (h : Moved id s0 sb s) {v w : Obj} {x : String} (hf : field sb v x = some w) : Sim.field s (mvO s0.store.length id v) x = some (mvO s0.store.length id w) := by
  cases v with
  | tab l =>
    unfold Sim.field at hf ⊢
    simp only [mvO] at hf ⊢
    rw [h.at]
    cases hs : sb.store[l]? with
    | none => rw [hs] at hf; cases hf
    | some t =>
      rw [hs] at hf
      cases t with
      | tab es =>
        simp only [Option.map_some, mvT] at hf ⊢
        rw [entryOf_mv, hf]
        rfl
      | fn ps b env => cases hf
      | host n env => cases hf
  | _ => cases hf

theorem Moved.no_field (h : Moved id s0 sb s) {l : Nat} {x : String} (hf : Sim.field sb (.tab l) x = none) : Sim.field s (.tab (s0.store.length + l)) x = none := by
  unfold Sim.field at hf ⊢
  simp only at hf ⊢
  rw [h.at]
  cases hs : sb.store[l]? with
  | none => rfl
  | some t =>
    rw [hs] at hf
    cases t with
    | tab es =>
      simp only [Option.map_some, mvT] at hf ⊢
      rw [entryOf_mv, hf]
      rfl
    | fn ps b env => rfl
    | host n env => rfl

theorem ascii_mem {x : String} {xs : List String} (h : x ∈ xs) : ascii x ∈ xs.map ascii := List.mem_map_of_mem h

theorem base_mem {x : String} (h : x ∈ libGlobals) : ascii x ∈ base.globals.map Prod.fst := by
  rw [base_globals, List.mem_reverse]
  exact ascii_mem h

theorem Moved.member (h : Moved id s0 base s) {name : String × String} (hn : name ∈ Lang.libNames) {self f : Obj} (hm : member base name = some (self, f)) :
    Sim.member s name = some (mvO s0.store.length id self, mvO s0.store.length id f) := by
  unfold Sim.member at hm ⊢
  by_cases h1 : name.1 = ""
  · rw [if_pos h1] at hm ⊢
    have hg : name.2 ∈ libGlobals := by
      rcases names_global name hn with k | k | k
      · rw [h1] at k; exact absurd k (by decide)
      · rw [h1] at k; exact absurd k (by decide)
      · exact k.2
    rw [h.globalVal (base_mem hg)]
    obtain ⟨hm1, hm2⟩ := Prod.mk.inj (Option.some.inj hm)
    rw [hm2, ← hm1]
    rfl
  · rw [if_neg h1] at hm ⊢
    by_cases h2 : name.1 = "math.rng"
    · rw [if_pos h2] at hm ⊢
      rw [h.globalVal (base_mem (by decide))]
      obtain ⟨t, k1, k2⟩ := Option.bind_eq_some_iff.1 hm
      obtain ⟨g, k3, k4⟩ := Option.map_eq_some_iff.1 k2
      obtain ⟨hm1, hm2⟩ := Prod.mk.inj k4
      rw [h.field k1, ← hm1, ← hm2]
      show Option.map _ (Sim.field s _ _) = _
      rw [h.field k3]
      rfl
    · rw [if_neg h2] at hm ⊢
      have hg : name.1 ∈ libGlobals := by
        rcases names_global name hn with k | k | k
        · exact absurd k h2
        · exact k
        · exact absurd k.1 h1
      rw [h.globalVal (base_mem hg)]
      obtain ⟨g, k3, k4⟩ := Option.map_eq_some_iff.1 hm
      obtain ⟨hm1, hm2⟩ := Prod.mk.inj k4
      rw [h.field k3, ← hm1, ← hm2]
      rfl

/-- **The registration puts the library in place, whatever the state.** -/
theorem installed (robot : Nat) (s0 : St) :
    ∃ r s1, Lang.regs (.int (robot : Int)) library ⟨none, [], 0, none⟩ s0 = .ok r s1 ∧ r.ws = [] ∧ r.nf = 65 ∧ Standard robot s0 s1 := by
  have hb := baseOk_true
  unfold baseOk at hb
  cases hb0 : base0 with
  | ok r sb =>
    rw [hb0] at hb
    have hbase : base = sb := by unfold base; rw [hb0]
    simp only [Bool.and_eq_true, beq_iff_eq, List.isEmpty_iff] at hb
    have hm0 : Moved (.int (robot : Int)) s0 ⟨[], [], .top⟩ s0 := ⟨by simp, fun x => rfl, rfl⟩
    obtain ⟨s1, k1, k2⟩ := Moved.regs ⟨_, rfl⟩ library (by decide +kernel) hm0 (by rintro x ⟨⟩) hb0
    rw [← hbase] at k2
    refine ⟨_, s1, k1, ?_, hb.2, ?_⟩
    · show r.ws.map _ = []
      rw [hb.1]
      rfl
    · have ho := otherOk_true
      unfold otherOk at ho
      simp only [Bool.and_eq_true, beq_iff_eq] at ho
      obtain ⟨⟨⟨⟨o1, o2⟩, o3⟩, o4⟩, o5⟩ := ho
      constructor
      · intro n name hn
        have hlt : n < 65 := by
          have := (List.getElem?_eq_some_iff.1 hn).1
          rwa [libNames_length] at this
        have hp := inPlace_all n (List.mem_range.2 hlt)
        unfold inPlace at hp
        rw [hn] at hp
        simp only at hp
        cases hm : member base name with
        | none => rw [hm] at hp; cases hp
        | some q =>
          obtain ⟨self, f⟩ := q
          rw [hm] at hp
          cases f with
          | clo l =>
            simp only at hp
            cases hs : base.store[l]? with
            | none => rw [hs] at hp; cases hp
            | some t =>
              rw [hs] at hp
              cases t with
              | tab es => cases hp
              | fn ps b env => cases hp
              | host m env =>
                cases env with
                | nil => cases hp
                | cons v env =>
                  cases env with
                  | cons w env => cases hp
                  | nil =>
                    simp only [Bool.and_eq_true, beq_iff_eq] at hp
                    obtain ⟨rfl, rfl⟩ := hp
                    refine ⟨_, _, k2.member (List.mem_of_getElem? hn) hm, ?_⟩
                    rw [k2.at, hs]
                    rfl
          | _ => cases hp
      · rw [k2.globalVal (base_mem (by decide)), o1]
        rfl
      · rw [k2.globalVal (base_mem (by decide)), k2.field o2]
        rfl
      · rw [k2.globalVal (base_mem (by decide)), k2.field o3]
        rfl
      · rw [k2.globalVal (base_mem (by decide)), k2.field o4]
        rfl
      · have hn := nbrsOk_true
        unfold nbrsOk at hn
        rw [k2.globalVal (base_mem (by decide))]
        cases hb : globalVal (ascii "neighbors") base with
        | tab l =>
          rw [hb] at o5
          exact k2.no_field o5
        | _ => rw [hb] at hn; cases hn
      · intro x hx
        refine k2.others ?_
        rw [base_globals, List.mem_reverse]
        exact hx
      · intro x hx l es hg hst e he
        have hk := keysOk_all x hx
        unfold keysOk at hk
        rw [k2.globalVal (base_mem hx)] at hg
        cases hb : globalVal (ascii x) base with
        | tab l' =>
          rw [hb] at hg hk
          obtain rfl : s0.store.length + l' = l := by
            simp only [mvO, Obj.tab.injEq] at hg
            omega
          rw [k2.at] at hst
          dsimp only at hk
          cases hs : base.store[l']? with
          | none => rw [hs] at hst; cases hst
          | some t =>
            rw [hs] at hst hk
            cases t with
            | tab es' =>
              simp only [Option.map_some, mvT, Option.some.injEq, Thing.tab.injEq] at hst
              rw [← hst] at he
              obtain ⟨e', h1, rfl⟩ := List.mem_map.mp he
              have := List.all_eq_true.mp hk e' h1
              obtain ⟨k, v⟩ := e'
              cases k with
              | str a b =>
                cases a with
                | zero => exact ⟨b, rfl⟩
                | succ a => simp at this
              | _ => simp at this
            | fn ps b env => cases hst
            | host n env => cases hst
        | user n =>
          rw [hb] at hg
          simp [mvO] at hg
        | _ => rw [hb] at hg; cases hg
      · intro l hl
        exact k2.old hl
      · exact k2.scope
  | _ => rw [hb0] at hb; cases hb

end Buzz.Sim
