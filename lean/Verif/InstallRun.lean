import Verif.InstallSim

/-
What the registration of the machine's functions does to a state: it is computed for the empty state, and the outcome for any other state is the
same with the locations moved.
-/
namespace Buzz.Sim

open Buzz.Msg Buzz.VM
open Buzz.Lang (Thing Scope St Regs valueOf entryOf globalVal)

/-- The value at its place: `n` is the number of locations before, `id` the value in place of objects of the host. -/
def mvO (n : Nat) (id : Obj) : Obj → Obj
  | .tab l => .tab (n + l)
  | .clo l => .clo (n + l)
  | .user _ => id
  | o => o

/-- What a location holds, at its place. -/
def mvT (n : Nat) (id : Obj) : Thing → Thing
  | .tab es => .tab (es.map (fun (e : Obj × Obj) => (e.1, mvO n id e.2)))
  | .fn ps b env => .fn ps b (env.map (fun e => (e.1, mvO n id e.2)))
  | .host m env => .host m (env.map (mvO n id))

def mvR (n : Nat) (id : Obj) (r : Regs) : Regs := ⟨r.t.map (mvO n id), r.ws.map (mvO n id), r.nf, r.last⟩

/-- `s` is `s0` with `sb` on top. -/
structure Moved (id : Obj) (s0 sb s : St) : Prop where
  store : s.store = s0.store ++ sb.store.map (mvT s0.store.length id)
  globals : ∀ x, valueOf x s.globals = ((valueOf x sb.globals).map (mvO s0.store.length id)).or (valueOf x s0.globals)
  scope : s.scope = s0.scope

variable {id : Obj} {s0 sb sb' s : St} {r r' : Regs}

theorem Moved.length (h : Moved id s0 sb s) : s.store.length = s0.store.length + sb.store.length := by
  rw [h.store]
  simp

theorem Moved.at (h : Moved id s0 sb s) (l : Nat) : s.store[s0.store.length + l]? = (sb.store[l]?).map (mvT s0.store.length id) := by
  rw [h.store, List.getElem?_append_right (by omega), Nat.add_sub_cancel_left, List.getElem?_map]

theorem Moved.old (h : Moved id s0 sb s) {l : Nat} (hl : l < s0.store.length) : s.store[l]? = s0.store[l]? := by
  rw [h.store, List.getElem?_append_left hl]

theorem Moved.new (h : Moved id s0 sb s) (t : Thing) : Moved id s0 (withNew t sb) (withNew (mvT s0.store.length id t) s) where
  store := by
    show s.store ++ _ = _ ++ (sb.store ++ _).map _
    rw [h.store]
    simp
  globals := h.globals
  scope := h.scope

theorem Moved.set (h : Moved id s0 sb s) (l : Nat) (t : Thing) : Moved id s0 (withThing l t sb) (withThing (s0.store.length + l) (mvT s0.store.length id t) s) where
  store := by
    show s.store.set _ _ = _ ++ (sb.store.set _ _).map _
    rw [h.store, List.set_append_right _ _ (by omega), Nat.add_sub_cancel_left, List.map_set]
  globals := h.globals
  scope := h.scope

theorem valueOf_with {x y : Bytes} {v : Obj} {s : St} : valueOf y (withGlobal x v s).globals = if y = x then some v else valueOf y s.globals := by
  unfold withGlobal
  show (if x = y then some v else _) = _
  by_cases h : y = x
  · rw [if_pos h.symm, if_pos h]
  · rw [if_neg (Ne.symm h), if_neg h, valueOf_filter h]

theorem Moved.global (h : Moved id s0 sb s) (x : Bytes) (v : Obj) : Moved id s0 (withGlobal x v sb) (withGlobal x (mvO s0.store.length id v) s) where
  store := h.store
  globals y := by
    rw [valueOf_with, valueOf_with, h.globals]
    by_cases hy : y = x
    · rw [if_pos hy, if_pos hy]
      rfl
    · rw [if_neg hy, if_neg hy]
  scope := h.scope

theorem mv_entries {n : Nat} {k : Obj} {v : Option Obj} {es : List (Obj × Obj)} :
    (putEntries k v es).map (fun (e : Obj × Obj) => (e.1, mvO n id e.2)) = putEntries k (v.map (mvO n id)) (es.map (fun (e : Obj × Obj) => (e.1, mvO n id e.2))) := by
  unfold putEntries
  rw [List.map_append]
  congr 1
  · rw [List.filter_map]
    rfl
  · cases v <;> rfl

theorem Moved.entries (h : Moved id s0 sb s) (l : Nat) (k v : Obj) {es : List (Obj × Obj)} : Moved id s0 (withThing l (.tab (putEntries k (some v) es)) sb)
    (withThing (s0.store.length + l) (.tab (putEntries k (some (mvO s0.store.length id v)) (es.map (fun e => (e.1, mvO s0.store.length id e.2))))) s) := by
  have := h.set l (.tab (putEntries k (some v) es))
  rw [show mvT s0.store.length id (.tab (putEntries k (some v) es)) = .tab (putEntries k (some (mvO s0.store.length id v)) (es.map (fun (e : Obj × Obj) => (e.1, mvO s0.store.length id e.2)))) from
    congrArg Thing.tab mv_entries] at this
  exact this

theorem mv_bindSelf {n : Nat} {t : Obj} {th c : Thing} (h : Lang.bindSelf t th = some c) : Lang.bindSelf (mvO n id t) (mvT n id th) = some (mvT n id c) := by
  cases th with
  | tab es => cases h
  | fn ps b env =>
    cases env with
    | nil => cases h
    | cons e env => cases h; rfl
  | host m env =>
    cases env with
    | nil => cases h
    | cons e env => cases h; rfl

theorem tabPut_inv {x k v : Obj} {s s' : St} (h : Lang.tabPut x k v s = .ok () s') :
    ∃ l es, x = .tab l ∧ s.store[l]? = some (.tab es) ∧ isKey k = true ∧ (Lang.sameKind k k && es.all (fun e => Lang.sameKind k e.1)) = true ∧ putOut l es k v s = .ok () s' := by
  cases x with
  | tab l =>
    cases hs : s.store[l]? with
    | none => rw [show Lang.tabPut (.tab l) k v s = .odd from bind_odd (look_none hs)] at h; cases h
    | some th =>
      cases th with
      | fn ps b env => rw [show Lang.tabPut (.tab l) k v s = .odd from bind_eq (look_some hs)] at h; cases h
      | host n env => rw [show Lang.tabPut (.tab l) k v s = .odd from bind_eq (look_some hs)] at h; cases h
      | tab es =>
        by_cases hkey : isKey k = true
        · by_cases hk : (Lang.sameKind k k && es.all (fun e => Lang.sameKind k e.1)) = true
          · rw [tabPut_eq (v := v) hs hkey hk] at h
            exact ⟨l, es, rfl, hs, hkey, hk, h⟩
          · have ho : Lang.tabPut (.tab l) k v s = .odd := by
              refine (bind_eq (look_some hs)).trans ?_
              simp only
              rw [if_pos hkey, if_neg hk]
              rfl
            rw [ho] at h
            cases h
        · have ho : Lang.tabPut (.tab l) k v s = .err .type := by
            refine (bind_eq (look_some hs)).trans ?_
            simp only
            rw [if_neg hkey]
            rfl
          rw [ho] at h
          cases h
  | _ => cases h

theorem Moved.put (h : Moved id s0 sb s) (hid : ∃ v, id = .int v) {x k v : Obj} (e : Lang.tabPut x k v sb = .ok () sb') :
    ∃ s', Lang.tabPut (mvO s0.store.length id x) (mvO s0.store.length id k) (mvO s0.store.length id v) s = .ok () s' ∧ Moved id s0 sb' s' := by
  obtain ⟨l, es, rfl, hs, hkey, hk, ho⟩ := tabPut_inv e
  have hkk : mvO s0.store.length id k = k := by
    cases k with
    | int v => rfl
    | str i x => rfl
    | _ => cases hk
  have hs' : s.store[s0.store.length + l]? = some (.tab (es.map (fun (e : Obj × Obj) => (e.1, mvO s0.store.length id e.2)))) := by
    rw [h.at, hs]
    rfl
  have hk' : (Lang.sameKind k k && (es.map (fun (e : Obj × Obj) => (e.1, mvO s0.store.length id e.2))).all (fun e => Lang.sameKind k e.1)) = true := by
    rw [List.all_map]
    exact hk
  rw [hkk]
  have hput := tabPut_eq (v := mvO s0.store.length id v) hs' hkey hk'
  cases v with
  | nil =>
    cases ho
    refine ⟨_, hput, ?_⟩
    have := h.set l (.tab (putEntries k none es))
    rw [show mvT s0.store.length id (.tab (putEntries k none es)) = .tab (putEntries k none (es.map (fun (e : Obj × Obj) => (e.1, mvO s0.store.length id e.2)))) from
      congrArg Thing.tab mv_entries] at this
    exact this
  | clo f =>
    have ho : (match sb.store[f]? with
      | none => Lang.Out.odd
      | some t =>
        match Lang.bindSelf (.tab l) t with
        | some c => .ok () (withThing l (.tab (putEntries k (some (.clo sb.store.length)) es)) (withNew c sb))
        | none => .odd) = .ok () sb' := ho
    have hput : _ = (match s.store[s0.store.length + f]? with
      | none => Lang.Out.odd
      | some t =>
        match Lang.bindSelf (.tab (s0.store.length + l)) t with
        | some c => .ok () (withThing (s0.store.length + l) (.tab (putEntries k (some (.clo s.store.length)) (es.map (fun (e : Obj × Obj) => (e.1, mvO s0.store.length id e.2))))) (withNew c s))
        | none => .odd) := hput
    cases hf : sb.store[f]? with
    | none => rw [hf] at ho; cases ho
    | some tf =>
      rw [hf] at ho
      simp only at ho
      cases hb : Lang.bindSelf (.tab l) tf with
      | none => rw [hb] at ho; cases ho
      | some c =>
        rw [hb] at ho
        cases ho
        rw [h.at, hf] at hput
        simp only [Option.map_some] at hput
        rw [show Lang.bindSelf (.tab (s0.store.length + l)) (mvT s0.store.length id tf) = some (mvT s0.store.length id c) from mv_bindSelf hb] at hput
        refine ⟨_, hput, ?_⟩
        have := (h.new c).set l (.tab (putEntries k (some (.clo sb.store.length)) es))
        rw [show mvT s0.store.length id (.tab (putEntries k (some (.clo sb.store.length)) es)) =
          .tab (putEntries k (some (.clo s.store.length)) (es.map (fun (e : Obj × Obj) => (e.1, mvO s0.store.length id e.2)))) from by
            rw [h.length]
            exact congrArg Thing.tab mv_entries] at this
        exact this
  | _ =>
    obtain ⟨w, rfl⟩ := hid
    cases ho
    exact ⟨_, hput, h.entries l k _⟩

/-- One command. -/
theorem Moved.reg (h : Moved id s0 sb s) (hid : ∃ v, id = .int v) (hl : ∀ x, r.last = some x → (valueOf x sb.globals).isSome) (c : Cmd) (hc : c.nbr = false) (e : Lang.reg (.user 0) c r sb = .ok r' sb') :
    ∃ s', Lang.reg id c (mvR s0.store.length id r) s = .ok (mvR s0.store.length id r') s' ∧ Moved id s0 sb' s' ∧ ∀ x, r'.last = some x → (valueOf x sb'.globals).isSome := by
  cases c with
  | name x => cases e; exact ⟨s, rfl, h, hl⟩
  | temp x => cases e; exact ⟨s, rfl, h, hl⟩
  | func =>
    cases e
    refine ⟨_, ?_, h.new _, hl⟩
    show Lang.Out.ok _ _ = _
    rw [h.length]
    rfl
  | table =>
    cases e
    refine ⟨_, ?_, h.new _, hl⟩
    show Lang.Out.ok _ _ = _
    rw [h.length]
    rfl
  | var =>
    cases e
    refine ⟨_, ?_, h.new _, hl⟩
    show Lang.Out.ok _ _ = _
    rw [h.length]
    rfl
  | top =>
    obtain ⟨t, ws, nf, last⟩ := r
    cases ws with
    | nil => cases e
    | cons v ws => cases e; exact ⟨s, rfl, h, hl⟩
  | push =>
    obtain ⟨t, ws, nf, last⟩ := r
    cases t with
    | none => cases e
    | some v => cases e; exact ⟨s, rfl, h, hl⟩
  | dup =>
    obtain ⟨t, ws, nf, last⟩ := r
    cases ws with
    | nil => cases e
    | cons v ws => cases e; exact ⟨s, rfl, h, hl⟩
  | robot => cases e; exact ⟨s, rfl, h, hl⟩
  | int v => cases e; exact ⟨s, rfl, h, hl⟩
  | flt w => cases e; exact ⟨s, rfl, h, hl⟩
  | put =>
    obtain ⟨v, k, x, ws, hw, e1, rfl⟩ := reg_put e
    obtain ⟨t, ws', nf, last⟩ := r
    cases hw
    obtain ⟨s', k1, k2⟩ := h.put hid e1
    refine ⟨s', ?_, k2, ?_⟩
    · exact bind_eq k1
    · intro x hx
      rw [(tabPut_frame e1).1]
      exact hl x hx
  | store =>
    obtain ⟨v, x, ws, hw, rfl, rfl⟩ := reg_store e
    obtain ⟨t, ws', nf, last⟩ := r
    cases hw
    refine ⟨_, rfl, h.global x v, ?_⟩
    rintro _ ⟨⟩
    rw [valueOf_with, if_pos rfl]
    rfl
  | load =>
    obtain ⟨x, ws, hw, hx, rfl, rfl⟩ := reg_load e
    obtain ⟨t, ws', nf, last⟩ := r
    cases hw
    refine ⟨s, ?_, h, hl⟩
    have hx : last = some x := hx
    have hg : globalVal x s = mvO s0.store.length id (globalVal x sb') := by
      unfold globalVal
      rw [h.globals]
      have := hl x hx
      cases hv : valueOf x sb'.globals with
      | none => rw [hv] at this; cases this
      | some v => rfl
    show (if last = some x then Lang.Out.ok _ s else .odd) = _
    rw [if_pos hx, hg]
    rfl
  | resetNbrs => cases hc
  | addNbr n d a e => cases hc

theorem Moved.regs (hid : ∃ v, id = .int v) (cs : List Cmd) (hc : ∀ c ∈ cs, c.nbr = false) : ∀ {r r' : Regs} {sb sb' s : St}, Moved id s0 sb s → (∀ x, r.last = some x → (valueOf x sb.globals).isSome) →
    Lang.regs (.user 0) cs r sb = .ok r' sb' → ∃ s', Lang.regs id cs (mvR s0.store.length id r) s = .ok (mvR s0.store.length id r') s' ∧ Moved id s0 sb' s' := by
  induction cs with
  | nil =>
    intro r r' sb sb' s h _ e
    cases e
    exact ⟨s, rfl, h⟩
  | cons c cs ih =>
    intro r r' sb sb' s h hl e
    obtain ⟨r1, s1, e1, e2⟩ := bindL_ok e
    obtain ⟨s2, k1, k2, k3⟩ := h.reg hid hl c (hc c (List.mem_cons_self ..)) e1
    obtain ⟨s3, k4, k5⟩ := ih (fun c hm => hc c (List.mem_cons_of_mem _ hm)) k2 k3 e2
    exact ⟨s3, (bind_eq k1).trans k4, k5⟩

end Buzz.Sim
