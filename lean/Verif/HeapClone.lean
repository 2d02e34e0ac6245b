import Verif.Heap
import Mathlib.Data.List.Perm.Subperm

/-
Lemmas about allocation, writes and cloning.
-/
namespace Buzz.Heap

open Buzz.Msg

theorem get_alloc {h : Heap} (i : Inv h) (mk : Nat) (c : Cell) (x : Nat) :
    FMap.get (alloc h mk c).1.objs x = if x = h.brk then some ⟨mk, c⟩ else FMap.get h.objs x := by
  simp only [alloc, FMap.get_append, FMap.get_cons, FMap.get_nil]
  by_cases hx : x = h.brk
  · subst hx
    have : FMap.get h.objs h.brk = none := by
      rw [FMap.get_eq_none_iff]
      intro hm
      obtain ⟨e, h1, h2⟩ := List.mem_map.mp hm
      have := i.brk e h1
      omega
    simp [this]
  · have : h.brk ≠ x := fun h => hx h.symm
    simp [hx, this]

theorem lt_brk {h : Heap} (i : Inv h) {a : Nat} {m : Marked} (hm : FMap.get h.objs a = some m) : a < h.brk :=
  i.brk _ (FMap.mem_of_get hm)

theorem inv_alloc {h : Heap} (i : Inv h) {c : Cell} (hc : ∀ b ∈ children c, (FMap.get h.objs b).isSome) :
    Inv (alloc h h.marker c).1 := by
  refine ⟨?_, ?_, ?_, ?_, i.mlt⟩
  · have := i.ok
    unfold FMap.Ok at *
    simp only [alloc, List.map_append, List.map_cons, List.map_nil]
    rw [List.nodup_append]
    refine ⟨this, by simp, ?_⟩
    intro a ha b hb
    simp only [List.mem_singleton] at hb
    obtain ⟨e, h1, rfl⟩ := List.mem_map.mp ha
    have := i.brk e h1
    omega
  · intro e he
    simp only [alloc, List.mem_append, List.mem_singleton] at he ⊢
    rcases he with he | he
    · exact Nat.lt_succ_of_lt (i.brk e he)
    · rw [he]; exact Nat.lt_succ_self _
  · intro a b p
    obtain ⟨m, h1, h2⟩ := points_iff.mp p
    rw [get_alloc i] at h1 ⊢
    have hb : (FMap.get h.objs b).isSome := by
      split at h1
      · cases h1; exact hc b h2
      · exact i.closed a b (points_iff.mpr ⟨m, h1, h2⟩)
    split
    · rfl
    · exact hb
  · intro e he
    simp only [alloc, List.mem_append, List.mem_singleton] at he ⊢
    rcases he with he | he
    · exact i.marks e he
    · rw [he]

theorem get_write (h : Heap) (a : Nat) (c : Cell) (x : Nat) :
    FMap.get (write h a c).objs x = if x = a then (FMap.get h.objs x).map (fun m => { m with cell := c }) else FMap.get h.objs x := by
  simp only [write, get_modify]

theorem inv_write {h : Heap} (i : Inv h) {a : Nat} {c : Cell} (hc : ∀ b ∈ children c, (FMap.get h.objs b).isSome) :
    Inv (write h a c) := by
  have hk : (write h a c).objs.map Prod.fst = h.objs.map Prod.fst := keys_modify h.objs a (fun m => { m with cell := c })
  refine ⟨?_, ?_, ?_, ?_, i.mlt⟩
  · have := i.ok
    unfold FMap.Ok at *
    rw [hk]; exact this
  · intro e he
    have : e.1 ∈ (write h a c).objs.map Prod.fst := List.mem_map.mpr ⟨e, he, rfl⟩
    rw [hk] at this
    obtain ⟨e', h1, h2⟩ := List.mem_map.mp this
    rw [← h2]; exact i.brk e' h1
  · intro x y p
    obtain ⟨m, h1, h2⟩ := points_iff.mp p
    have hy : (FMap.get h.objs y).isSome := by
      rw [get_write] at h1
      split at h1
      · rw [Option.map_eq_some_iff] at h1
        obtain ⟨m', _, h3⟩ := h1
        rw [← h3] at h2
        exact hc y h2
      · exact i.closed x y (points_iff.mpr ⟨m, h1, h2⟩)
    rw [get_write]
    split
    · simpa using hy
    · exact hy
  · intro e he
    simp only [write, modify, List.mem_map] at he
    obtain ⟨e', h1, h2⟩ := he
    have := i.marks e' h1
    rw [← h2]
    split
    · exact this
    · exact this

/-- `h'` has all objects of `h`, unchanged. -/
structure Ext (h h' : Heap) : Prop where
  brk : h.brk ≤ h'.brk
  marker : h'.marker = h.marker
  maxObjs : h'.maxObjs = h.maxObjs
  old : ∀ a, a < h.brk → FMap.get h'.objs a = FMap.get h.objs a

theorem Ext.refl (h : Heap) : Ext h h := ⟨Nat.le_refl _, rfl, rfl, fun _ _ => rfl⟩

theorem Ext.trans {h h' h'' : Heap} (a : Ext h h') (b : Ext h' h'') : Ext h h'' :=
  ⟨Nat.le_trans a.brk b.brk, b.marker.trans a.marker, b.maxObjs.trans a.maxObjs, fun x hx => by
    rw [b.old x (Nat.lt_of_lt_of_le hx a.brk), a.old x hx]⟩

theorem Ext.get {h h' : Heap} (i : Inv h) (a : Ext h h') {x : Nat} {m : Marked} (hm : FMap.get h.objs x = some m) :
    FMap.get h'.objs x = some m := by
  rw [a.old x (lt_brk i hm), hm]

theorem Ext.isSome {h h' : Heap} (i : Inv h) (a : Ext h h') {x : Nat} (hm : (FMap.get h.objs x).isSome) :
    (FMap.get h'.objs x).isSome := by
  obtain ⟨m, h1⟩ := Option.isSome_iff_exists.mp hm
  rw [a.get i h1]; rfl

theorem ext_alloc {h : Heap} (i : Inv h) (mk : Nat) (c : Cell) : Ext h (alloc h mk c).1 :=
  ⟨Nat.le_succ _, rfl, rfl, fun a ha => by rw [get_alloc i, if_neg (by omega)]⟩

/-! ### What a copy is -/

/-- The object at `b` of `h'` is a structural copy of the object at `a` of `h`: the same number, string, nil or user data; a
closure with the same code and the same activation record; or a table with copies of the same keys and values.  All objects
of the copy are at addresses from `lo` on. -/
inductive Copy (h h' : Heap) (lo : Nat) : Nat → Nat → Prop where
  | atom {a b : Nat} {m m' : Marked} (o : Obj) : FMap.get h.objs a = some m → FMap.get h'.objs b = some m' → m.cell = .atom o →
      m'.cell = .atom o → lo ≤ b → Copy h h' lo a b
  | clo {a b : Nat} {m m' : Marked} (n : Bool) (r : Int) (l : List Nat) : FMap.get h.objs a = some m → FMap.get h'.objs b = some m' →
      m.cell = .clo n r l → m'.cell = .clo n r l → lo ≤ b → Copy h h' lo a b
  | tab {a b : Nat} {m m' : Marked} (t t' : Table.Tbl (Nat × Nat)) (g : Obj → Nat × Nat) : FMap.get h.objs a = some m →
      FMap.get h'.objs b = some m' → m.cell = .tab t → m'.cell = .tab t' → lo ≤ b →
      (∀ e, e ∈ Dict.entries t' ↔ e.2 = g e.1 ∧ ∃ e0 ∈ Dict.entries t, e0.1 = e.1) →
      (∀ e ∈ Dict.entries t, Copy h h' lo e.2.1 (g e.1).1) → (∀ e ∈ Dict.entries t, Copy h h' lo e.2.2 (g e.1).2) →
      Copy h h' lo a b

theorem Copy.present {h h' : Heap} {lo a b : Nat} (c : Copy h h' lo a b) : ∃ m, FMap.get h'.objs b = some m := by
  cases c with
  | atom o _ h2 => exact ⟨_, h2⟩
  | clo n r l _ h2 => exact ⟨_, h2⟩
  | tab t t' g _ h2 => exact ⟨_, h2⟩

/-- A copy survives changes elsewhere. -/
theorem Copy.frame {h h' h'' : Heap} {lo lo' a b : Nat} (hl : lo' ≤ lo) (hf : ∀ x m, lo ≤ x → FMap.get h'.objs x = some m →
    FMap.get h''.objs x = some m) (c : Copy h h' lo a b) : Copy h h'' lo' a b := by
  induction c with
  | atom o h1 h2 h3 h4 h5 => exact .atom o h1 (hf _ _ h5 h2) h3 h4 (Nat.le_trans hl h5)
  | clo n r l h1 h2 h3 h4 h5 => exact .clo n r l h1 (hf _ _ h5 h2) h3 h4 (Nat.le_trans hl h5)
  | tab t t' g h1 h2 h3 h4 h5 h6 _ _ ih1 ih2 =>
    exact .tab t t' g h1 (hf _ _ h5 h2) h3 h4 (Nat.le_trans hl h5) h6 ih1 ih2

/-! ### Cloning -/

/-- A table whose keys can be told apart: well-formed, comparison is equality on its keys, and the key objects hold the keys. -/
structure TabOk (sc : Bytes → Bytes → Int) (h : Heap) (t : Table.Tbl (Nat × Nat)) : Prop where
  wf : Dict.WF Table.hashN Table.eqd t
  keys : ∃ S, Table.Homog sc S ∧ Table.Keys S t
  objs : ∀ e ∈ Dict.entries t, ∃ m, FMap.get h.objs e.2.1 = some m ∧ m.cell = .atom e.1

/-- `b` is a key or value of the table at `a`. -/
def Elem (h : Heap) (a b : Nat) : Prop :=
  ∃ m t, FMap.get h.objs a = some m ∧ m.cell = .tab t ∧ ∃ e ∈ Dict.entries t, e.2.1 = b ∨ e.2.2 = b

/-- No table below `a` contains itself. -/
inductive Acyclic (h : Heap) : Nat → Prop where
  | mk {a : Nat} : (∀ b, Elem h a b → Acyclic h b) → Acyclic h a

/-- One or more steps through tables. -/
inductive Below (h : Heap) : Nat → Nat → Prop where
  | one {a b : Nat} : Elem h a b → Below h a b
  | more {a b c : Nat} : Below h a b → Elem h b c → Below h a c

theorem Below.head {h : Heap} {a b c : Nat} (e : Elem h a b) (r : Below h b c) : Below h a c := by
  induction r with
  | one h1 => exact .more (.one e) h1
  | more _ h1 ih => exact .more ih h1

theorem Acyclic.irrefl {h : Heap} {a : Nat} (ac : Acyclic h a) : ¬ Below h a a := by
  induction ac with
  | mk _ ih =>
    rename_i a _
    intro r
    -- the first step leads to an element below itself
    have split : ∀ x, Below h a x → ∃ b, Elem h a b ∧ (b = x ∨ Below h b x) := by
      intro x r
      induction r with
      | one h1 => exact ⟨_, h1, .inl rfl⟩
      | more _ h1 ih =>
        obtain ⟨b, h2, h3⟩ := ih
        refine ⟨b, h2, .inr ?_⟩
        rcases h3 with h3 | h3
        · subst h3; exact .one h1
        · exact .more h3 h1
    obtain ⟨b, h1, h2⟩ := split a r
    apply ih b h1
    rcases h2 with h2 | h2
    · subst h2; exact .one h1
    · exact .more h2 h1

theorem Acyclic.elem {h : Heap} {a b : Nat} (ac : Acyclic h a) (e : Elem h a b) : Acyclic h b := by
  cases ac with
  | mk h1 => exact h1 b e

/-- The content of a new object: that of an old one, or a proper table. -/
def NewOk (sc : Bytes → Bytes → Int) (h0 h' : Heap) (c : Cell) : Prop :=
  (∃ a m, FMap.get h0.objs a = some m ∧ m.cell = c ∧ ∀ t, c ≠ .tab t) ∨ ∃ t, c = .tab t ∧ TabOk sc h' t

theorem NewOk.mono {sc : Bytes → Bytes → Int} {h0 h h' : Heap} {c : Cell} (n : NewOk sc h0 h c)
    (hf : ∀ x m o, FMap.get h.objs x = some m → m.cell = .atom o → ∃ m', FMap.get h'.objs x = some m' ∧ m'.cell = .atom o) :
    NewOk sc h0 h' c := by
  rcases n with n | ⟨t, h1, h2, h3, h4⟩
  · exact .inl n
  · refine .inr ⟨t, h1, h2, h3, fun e he => ?_⟩
    obtain ⟨m, h5, h6⟩ := h4 e he
    exact hf _ m _ h5 h6

/-- What cloning promises. -/
structure Cloned (sc : Bytes → Bytes → Int) (h0 h : Heap) (a : Nat) (h' : Heap) (b : Nat) : Prop where
  inv : Inv h'
  ext : Ext h h'
  copy : Copy h0 h' h.brk a b
  fresh : ∀ x m, h.brk ≤ x → FMap.get h'.objs x = some m → NewOk sc h0 h' m.cell

/-- State of the loop over the entries of a table. -/
structure LoopInv (sc : Bytes → Bytes → Int) (S : Obj → Prop) (h0 h : Heap) (done : List (Obj × (Nat × Nat))) (p : Heap × Table.Tbl (Nat × Nat)) : Prop where
  inv : Inv p.1
  brk : h.brk + 1 ≤ p.1.brk
  marker : p.1.marker = h.marker
  maxObjs : p.1.maxObjs = h.maxObjs
  old : ∀ a, a < h.brk → FMap.get p.1.objs a = FMap.get h.objs a
  self : ∃ m t, FMap.get p.1.objs h.brk = some m ∧ m.cell = .tab t
  wf : Dict.WF Table.hashN Table.eqd p.2
  keys : Table.Keys S p.2
  fwd : ∀ e ∈ done, ∃ x, (e.1, x) ∈ Dict.entries p.2
  bwd : ∀ x ∈ Dict.entries p.2, ∃ e ∈ done, e.1 = x.1 ∧ Copy h0 p.1 (h.brk + 1) e.2.1 x.2.1 ∧ Copy h0 p.1 (h.brk + 1) e.2.2 x.2.2
  kobj : ∀ x ∈ Dict.entries p.2, ∃ m, FMap.get p.1.objs x.2.1 = some m ∧ m.cell = .atom x.1
  fresh : ∀ x m, h.brk ≤ x → FMap.get p.1.objs x = some m → NewOk sc h0 p.1 m.cell

theorem keys_nodup {t : Table.Tbl (Nat × Nat)} (w : Dict.WF Table.hashN Table.eqd t) : FMap.Ok (Dict.entries t) := by
  unfold FMap.Ok
  rw [List.Nodup, List.pairwise_map]
  exact (Dict.entries_uniq Table.eqd_lawful w).imp (by intro a b h; simpa [Table.eqd] using h)

/-- The body of the loop over the entries of a table. -/
def elem (sc : Bytes → Bytes → Int) (fuel : Nat) (p : Heap × Table.Tbl (Nat × Nat)) (e : Obj × (Nat × Nat)) :
    Res (Heap × Table.Tbl (Nat × Nat)) := do
  let k ← clone sc fuel p.1 e.2.1
  let d ← clone sc fuel k.1 e.2.2
  let kc ← deref d.1 k.2
  let t ← Table.set sc p.2 (objOf k.2 kc.cell) (k.2, d.2)
  pure (d.1, t)

theorem loop_spec {sc : Bytes → Bytes → Int} {S : Obj → Prop} {h0 h : Heap} {fuel : Nat} (H : Table.Homog sc S)
    (x0 : Ext h0 h) (es0 : List (Obj × (Nat × Nat)))
    (hS : ∀ e ∈ es0, S e.1) (hkey : ∀ e ∈ es0, ∃ m, FMap.get h0.objs e.2.1 = some m ∧ m.cell = .atom e.1)
    (one : ∀ h1, Inv h1 → Ext h0 h1 → ∀ e ∈ es0, ∀ c, c = e.2.1 ∨ c = e.2.2 → ∃ h' b, clone sc fuel h1 c = .ok (h', b) ∧ Cloned sc h0 h1 c h' b) :
    ∀ (es done : List (Obj × (Nat × Nat))) (p : Heap × Table.Tbl (Nat × Nat)), (∀ e ∈ es, e ∈ es0) →
      ((done ++ es).map Prod.fst).Nodup → LoopInv sc S h0 h done p →
      ∃ p', es.foldlM (elem sc fuel) p = .ok p' ∧ LoopInv sc S h0 h (done ++ es) p'
  | [], done, p, _, _, li => ⟨p, rfl, by simpa using li⟩
  | e :: es, done, p, hes, hn, li => by
    have he0 := hes e (List.mem_cons_self ..)
    have x1 : Ext h0 p.1 := ⟨Nat.le_trans x0.brk (by have := li.brk; omega), li.marker.trans x0.marker, li.maxObjs.trans x0.maxObjs,
      fun a ha => by rw [li.old a (Nat.lt_of_lt_of_le ha x0.brk), x0.old a ha]⟩
    obtain ⟨hk, k, ck, cl1⟩ := one p.1 li.inv x1 e he0 e.2.1 (.inl rfl)
    obtain ⟨hd, d, cd, cl2⟩ := one hk cl1.inv (x1.trans cl1.ext) e he0 e.2.2 (.inr rfl)
    -- the cloned key has the same content
    obtain ⟨m0, hm0, hc0⟩ := hkey e he0
    have hkc : ∃ m, FMap.get hd.objs k = some m ∧ m.cell = .atom e.1 := by
      cases cl1.copy with
      | atom o h1 h2 h3 h4 _ =>
        rw [hm0] at h1; cases h1
        refine ⟨_, cl2.ext.get cl1.inv h2, ?_⟩
        rw [h4, ← h3, hc0]
      | clo n r l h1 _ h3 => rw [hm0] at h1; cases h1; rw [hc0] at h3; cases h3
      | tab t t' g h1 _ h3 => rw [hm0] at h1; cases h1; rw [hc0] at h3; cases h3
    obtain ⟨mk, hmk, hmc⟩ := hkc
    obtain ⟨t', ht, wf', keys', perm⟩ := Table.put_spec H li.wf li.keys (hS e he0) (some (k, d))
    have hnew : ∀ x ∈ Dict.entries p.2, x.1 ≠ e.1 := by
      intro x hx hxe
      obtain ⟨e', h1, h2, _⟩ := li.bwd x hx
      rw [List.map_append, List.nodup_append] at hn
      exact hn.2.2 _ (List.mem_map.mpr ⟨e', h1, rfl⟩) _ (List.mem_map.mpr ⟨e, List.mem_cons_self .., rfl⟩) (h2.trans hxe)
    have hmem : ∀ x, x ∈ Dict.entries t' ↔ x ∈ Dict.entries p.2 ∨ x = (e.1, (k, d)) := by
      intro x
      rw [perm.mem_iff]
      simp only [List.mem_append, List.mem_filter, Option.map_some, Option.toList_some, List.mem_singleton]
      constructor
      · rintro (⟨h1, _⟩ | h1)
        · exact .inl h1
        · exact .inr h1
      · rintro (h1 | h1)
        · exact .inl ⟨h1, by have := hnew x h1; simp [Table.eqd, Ne.symm this]⟩
        · exact .inr h1
    have hstep : elem sc fuel p e = .ok (hd, t') := by
      have hdr : deref hd k = .ok mk := by simp [deref, hmk]
      have hset : Table.set sc p.2 e.1 (k, d) = .ok t' := ht
      simp only [elem, ck, cd, hdr, Res.ok_bind, hmc, objOf, hset, Res.pure_eq]
    have hx : Ext p.1 hd := cl1.ext.trans cl2.ext
    have hbrk := li.brk
    have hb1 := cl1.ext.brk
    have hb2 := cl2.ext.brk
    have li' : LoopInv sc S h0 h (done ++ [e]) (hd, t') := by
      refine ⟨cl2.inv, Nat.le_trans li.brk hx.brk, hx.marker.trans li.marker, hx.maxObjs.trans li.maxObjs, ?_, ?_, wf', keys', ?_, ?_, ?_, ?_⟩
      · intro a ha
        simp only
        rw [hx.old a (by omega), li.old a ha]
      · obtain ⟨m, t, h1, h2⟩ := li.self
        exact ⟨m, t, hx.get li.inv h1, h2⟩
      · intro x hx
        simp only
        rcases List.mem_append.mp hx with h1 | h1
        · obtain ⟨y, hy⟩ := li.fwd x h1
          exact ⟨y, (hmem _).mpr (.inl hy)⟩
        · simp only [List.mem_singleton] at h1
          subst h1
          exact ⟨_, (hmem _).mpr (.inr rfl)⟩
      · intro x hxm
        rcases (hmem x).mp hxm with h1 | h1
        · obtain ⟨e', h2, h3, h4, h5⟩ := li.bwd x h1
          exact ⟨e', List.mem_append_left _ h2, h3, h4.frame (Nat.le_refl _) (fun y m _ hy => hx.get li.inv hy),
            h5.frame (Nat.le_refl _) (fun y m _ hy => hx.get li.inv hy)⟩
        · subst h1
          refine ⟨e, List.mem_append_right _ (List.mem_singleton.mpr rfl), rfl, ?_, ?_⟩
          · exact cl1.copy.frame hbrk (fun y m _ hy => cl2.ext.get cl1.inv hy)
          · exact cl2.copy.frame (by omega) (fun y m _ hy => hy)
      · intro x hxm
        rcases (hmem x).mp hxm with h1 | h1
        · obtain ⟨m, h2, h3⟩ := li.kobj x h1
          exact ⟨m, hx.get li.inv h2, h3⟩
        · subst h1
          exact ⟨mk, hmk, hmc⟩
      · intro x m hxb hxm
        simp only at hxm
        by_cases hxk : hk.brk ≤ x
        · exact cl2.fresh x m hxk hxm
        · rw [cl2.ext.old x (by omega)] at hxm
          by_cases hxp : p.1.brk ≤ x
          · exact (cl1.fresh x m hxp hxm).mono (fun y m' o hy hc => ⟨m', cl2.ext.get cl1.inv hy, hc⟩)
          · rw [cl1.ext.old x (by omega)] at hxm
            exact (li.fresh x m hxb hxm).mono (fun y m' o hy hc => ⟨m', hx.get li.inv hy, hc⟩)
    obtain ⟨p', h1, h2⟩ := loop_spec H x0 es0 hS hkey one es (done ++ [e]) (hd, t')
      (fun x hx => hes x (List.mem_cons_of_mem _ hx)) (by simpa using hn) li'
    refine ⟨p', ?_, by simpa using h2⟩
    rw [List.foldlM_cons, hstep]
    exact h1

/-- Cloning an acyclic value whose tables are proper: terminates within the number of objects, leaves all objects as they are and makes a
copy. -/
theorem clone_below {sc : Bytes → Bytes → Int} {h0 : Heap} (i0 : Inv h0) :
    ∀ (fuel : Nat) (h : Heap) (a : Nat) (L : List Nat), Inv h → Ext h0 h → (FMap.get h0.objs a).isSome → Acyclic h0 a → L.Nodup →
      (∀ x ∈ L, (FMap.get h0.objs x).isSome ∧ Below h0 x a) → h0.objs.length < L.length + fuel →
      (∀ x m t, (x = a ∨ Below h0 a x) → FMap.get h0.objs x = some m → m.cell = .tab t → TabOk sc h0 t) →
      ∃ h' b, clone sc fuel h a = .ok (h', b) ∧ Cloned sc h0 h a h' b
  | 0, h, a, L, _, _, _, _, hn, hL, hf, _ => by
    exfalso
    have hsub : L ⊆ h0.objs.map Prod.fst := by
      intro x hx
      by_contra hc
      have h1 := (hL x hx).1
      rw [(FMap.get_eq_none_iff h0.objs x).mpr hc] at h1
      cases h1
    have := (hn.subperm hsub).length_le
    simp only [List.length_map] at this
    omega
  | fuel + 1, h, a, L, i, x0, ha, ac, hn, hL, hf, tk => by
    obtain ⟨m, hm⟩ := Option.isSome_iff_exists.mp ha
    have hmh := x0.get i0 hm
    have hd : deref h a = .ok m := by simp [deref, hmh]
    have hmk : m.mark = h.marker := i.marks _ (FMap.mem_of_get hmh)
    cases hc : m.cell with
    | atom o =>
      refine ⟨(alloc h m.mark (.atom o)).1, h.brk, by simp [clone, hd, hc, alloc], ?_, ext_alloc i _ _, ?_, ?_⟩
      · rw [hmk]; exact inv_alloc i (by simp [children])
      · exact .atom o hm (by rw [get_alloc i, if_pos rfl]) hc rfl (Nat.le_refl _)
      · intro x mm hx hxm
        rw [get_alloc i] at hxm
        split at hxm
        · cases hxm
          exact .inl ⟨a, m, hm, hc, by intro t; simp⟩
        · exact absurd (lt_brk i hxm) (by omega)
    | clo n r l =>
      refine ⟨(alloc h m.mark (.clo n r l)).1, h.brk, by simp [clone, hd, hc, alloc], ?_, ext_alloc i _ _, ?_, ?_⟩
      · rw [hmk]
        exact inv_alloc i (fun b hb => i.closed a b (points_iff.mpr ⟨m, hmh, by rw [hc]; exact hb⟩))
      · exact .clo n r l hm (by rw [get_alloc i, if_pos rfl]) hc rfl (Nat.le_refl _)
      · intro x mm hx hxm
        rw [get_alloc i] at hxm
        split at hxm
        · cases hxm
          exact .inl ⟨a, m, hm, hc, by intro t; simp⟩
        · exact absurd (lt_brk i hxm) (by omega)
    | tab t =>
      have ok := tk a m t (.inl rfl) hm hc
      obtain ⟨S, H, hS⟩ := ok.keys
      have hpos : 0 < t.buckets.length := ok.wf.pos
      have helem : ∀ e ∈ Dict.entries t, ∀ c, c = e.2.1 ∨ c = e.2.2 → Elem h0 a c := by
        intro e he c hcc
        exact ⟨m, t, hm, hc, e, he, by rcases hcc with h | h <;> simp [h]⟩
      have haL : a ∉ L := fun h => ac.irrefl (hL a h).2
      have hstart : LoopInv sc S h0 h [] ((alloc h m.mark (.tab (Dict.new t.buckets.length))).1, Dict.new t.buckets.length) := by
        refine ⟨?_, Nat.le_refl _, rfl, rfl, ?_, ?_, Dict.new_wf hpos, ?_, by simp, ?_, ?_, ?_⟩
        · rw [hmk]; exact inv_alloc i (by simp [children, Dict.entries_new])
        · intro x hx; exact (ext_alloc i _ _).old x hx
        · exact ⟨_, _, by rw [get_alloc i, if_pos rfl], rfl⟩
        · intro e he; simp [Dict.entries_new] at he
        · intro e he; simp [Dict.entries_new] at he
        · intro e he; simp [Dict.entries_new] at he
        · intro x mm hx hxm
          simp only [get_alloc i] at hxm
          split at hxm
          · cases hxm
            exact .inr ⟨_, rfl, Dict.new_wf hpos, ⟨S, H, by intro e he; simp [Dict.entries_new] at he⟩,
              by intro e he; simp [Dict.entries_new] at he⟩
          · exact absurd (lt_brk i hxm) (by omega)
      obtain ⟨p, hp, li⟩ := loop_spec (fuel := fuel) H x0 (Dict.entries t) hS ok.objs
        (by
          intro h1 i1 x1 e he c hcc
          have hel := helem e he c hcc
          refine clone_below i0 fuel h1 c (a :: L) i1 x1 (i0.closed a c ?_) (ac.elem hel) (List.nodup_cons.mpr ⟨haL, hn⟩) ?_ ?_
            (fun x m t hx => tk x m t (.inr (by rcases hx with rfl | hx; exacts [.one hel, .head hel hx])))
          · refine points_iff.mpr ⟨m, hm, ?_⟩
            rw [hc]
            simp only [children, List.mem_flatMap]
            exact ⟨e, he, by rcases hcc with h | h <;> simp [h]⟩
          · intro x hx
            rcases List.mem_cons.mp hx with h2 | h2
            · subst h2; exact ⟨ha, .one hel⟩
            · exact ⟨(hL x h2).1, .more (hL x h2).2 hel⟩
          · simp only [List.length_cons]; omega)
        (Dict.entries t) [] _ (fun _ h => h) (by rw [List.nil_append]; exact keys_nodup ok.wf) hstart
      simp only [List.nil_append] at li
      have hrun : clone sc (fuel + 1) h a = .ok (write p.1 h.brk (.tab p.2), h.brk) := by
        simp only [clone, hd, Res.ok_bind, hc]
        have : (Dict.entries t).foldlM (elem sc fuel) ((alloc h m.mark (.tab (Dict.new t.buckets.length))).1, Dict.new t.buckets.length) = .ok p := hp
        unfold elem at this
        rw [this]
        rfl
      have hself : ∃ m', FMap.get (write p.1 h.brk (.tab p.2)).objs h.brk = some m' ∧ m'.cell = .tab p.2 := by
        obtain ⟨m', _, h1, _⟩ := li.self
        rw [get_write, if_pos rfl, h1]
        exact ⟨_, rfl, rfl⟩
      obtain ⟨m', h1, h2⟩ := hself
      have kn := keys_nodup li.wf
      have kt := keys_nodup ok.wf
      have hfr : ∀ x mm, h.brk + 1 ≤ x → FMap.get p.1.objs x = some mm → FMap.get (write p.1 h.brk (.tab p.2)).objs x = some mm := by
        intro x mm hx hg
        rw [get_write, if_neg (by omega), hg]
      have hcp : ∀ e ∈ Dict.entries t, Copy h0 p.1 (h.brk + 1) e.2.1 ((FMap.get (Dict.entries p.2) e.1).getD (0, 0)).1 ∧
          Copy h0 p.1 (h.brk + 1) e.2.2 ((FMap.get (Dict.entries p.2) e.1).getD (0, 0)).2 := by
        intro e he
        obtain ⟨x, hx⟩ := li.fwd e he
        obtain ⟨e', h3, h4, h5⟩ := li.bwd _ hx
        have hee : e'.2 = e.2 := by
          have g1 := FMap.get_of_mem kt (k := e'.1) (v := e'.2) h3
          have g2 := FMap.get_of_mem kt (k := e.1) (v := e.2) he
          simp only at h4
          rw [h4, g2] at g1
          exact (Option.some.inj g1).symm
        rw [FMap.get_of_mem kn hx]
        simp only [Option.getD_some]
        rw [← hee]
        exact h5
      refine ⟨_, _, hrun, ?_, ?_, ?_, ?_⟩
      · refine inv_write li.inv ?_
        intro b hb
        simp only [children, List.mem_flatMap] at hb
        obtain ⟨e, he, hb⟩ := hb
        obtain ⟨e', _, _, c1, c2⟩ := li.bwd e he
        simp only [List.mem_cons, List.not_mem_nil, or_false] at hb
        rcases hb with hb | hb
        · obtain ⟨mm, hmm⟩ := c1.present; rw [hb, hmm]; rfl
        · obtain ⟨mm, hmm⟩ := c2.present; rw [hb, hmm]; rfl
      · refine ⟨Nat.le_trans (Nat.le_succ _) li.brk, li.marker, li.maxObjs, ?_⟩
        intro x hx
        rw [get_write, if_neg (by omega), li.old x hx]
      · refine .tab t p.2 (fun k => (FMap.get (Dict.entries p.2) k).getD (0, 0)) hm h1 hc h2 (Nat.le_refl _) ?_ ?_ ?_
        · intro e
          constructor
          · intro he
            obtain ⟨e', h3, h4, _⟩ := li.bwd e he
            refine ⟨?_, e', h3, h4⟩
            rw [FMap.get_of_mem kn (k := e.1) (v := e.2) he]
            rfl
          · rintro ⟨h3, e0, h4, h5⟩
            obtain ⟨x, hx⟩ := li.fwd e0 h4
            have h6 := FMap.get_of_mem kn hx
            rw [h5] at h6 hx
            rw [h6] at h3
            simp only [Option.getD_some] at h3
            rw [← h3] at hx
            exact hx
        · intro e he
          exact ((hcp e he).1).frame (Nat.le_succ _) hfr
        · intro e he
          exact ((hcp e he).2).frame (Nat.le_succ _) hfr
      · have hatom : ∀ x mm o, FMap.get p.1.objs x = some mm → mm.cell = .atom o →
            ∃ m', FMap.get (write p.1 h.brk (.tab p.2)).objs x = some m' ∧ m'.cell = .atom o := by
          intro x mm o hx hxc
          have hne : x ≠ h.brk := by
            rintro rfl
            obtain ⟨m1, t1, h3, h4⟩ := li.self
            rw [hx] at h3; cases h3
            rw [hxc] at h4; cases h4
          exact ⟨mm, by rw [get_write, if_neg hne, hx], hxc⟩
        intro x mm hx hxm
        rw [get_write] at hxm
        split at hxm
        · rw [Option.map_eq_some_iff] at hxm
          obtain ⟨m1, _, h4⟩ := hxm
          rw [← h4]
          refine .inr ⟨_, rfl, li.wf, ⟨S, H, li.keys⟩, fun e he => ?_⟩
          obtain ⟨m2, h5, h6⟩ := li.kobj e he
          exact hatom _ _ _ h5 h6
        · exact (li.fresh x mm hx hxm).mono hatom

/-- The same for a heap in which all tables are proper. -/
theorem clone_spec {sc : Bytes → Bytes → Int} {h0 : Heap} (i0 : Inv h0)
    (tk : ∀ a m t, FMap.get h0.objs a = some m → m.cell = .tab t → TabOk sc h0 t) (fuel : Nat) (h : Heap) (a : Nat) (L : List Nat) (i : Inv h)
    (x0 : Ext h0 h) (ha : (FMap.get h0.objs a).isSome) (ac : Acyclic h0 a) (hn : L.Nodup)
    (hL : ∀ x ∈ L, (FMap.get h0.objs x).isSome ∧ Below h0 x a) (hf : h0.objs.length < L.length + fuel) :
    ∃ h' b, clone sc fuel h a = .ok (h', b) ∧ Cloned sc h0 h a h' b :=
  clone_below i0 fuel h a L i x0 ha ac hn hL hf (fun x m t _ => tk x m t)

end Buzz.Heap
