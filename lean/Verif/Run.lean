import Verif.Boot

/-
A whole program: compiled, assembled, loaded and run.
-/
namespace Buzz.Link

open Buzz.Msg Buzz.Debug Buzz.Asm Buzz.Props Buzz.Parser Buzz.Comp Buzz.VM Buzz.Sim
open Buzz.Lang (Ast Shape St T2 Syn complete decls functions mentions Legal tops syn_tops)

variable {T : Tools} {pre : List Bytes} {b : Ast} {o : Out} {cs : List Chunk}

/-- The bytecode of a program. -/
def bytecode (T : Tools) (pre : List Bytes) (b : Ast) (o : Out) (cs : List Chunk) : Bytes :=
  (itemsOf T pre b o cs).flatMap (Item.bytes T.endian (lookIn 0 (itemsOf T pre b o cs)))

/-- The functions of the host. -/
structure Hosts where
  lib : Lang.Lib
  nfuns : Nat
  loose : Bool

/-- The machine's surroundings with this bytecode. -/
def ctxOf (T : Tools) (pre : List Bytes) (b : Ast) (o : Out) (cs : List Chunk) (E : Env) (F : CFuns) (L : Hosts) : Ctx :=
  ⟨E, F, T.strtof, bytecode T pre b o cs, fun k => lookIn 0 (itemsOf T pre b o cs) (labelText k), numbered (stringsOf pre b), L.lib, L.nfuns, L.loose, 0⟩

/-- The same without functions of the host. -/
abbrev ctx (T : Tools) (pre : List Bytes) (b : Ast) (o : Out) (cs : List Chunk) (E : Env) (F : CFuns) : Ctx := ctxOf T pre b o cs E F ⟨Lang.noLib, 0, false⟩

theorem bytecode_length : (bytecode T pre b o cs).length = progSize (itemsOf T pre b o cs) := prog_length ..

variable {E : Env} {F : CFuns} {L : Hosts}

theorem Result.linked (h : Result T pre b o cs) (he : E.endian = T.endian) (hs : (bytecode T pre b o cs).length ≤ 2147483647) :
    Linked T (itemsOf T pre b o cs) (ctxOf T pre b o cs E F L) := ⟨h.links, he, rfl, rfl, fun _ => rfl, by rw [← bytecode_length]; exact hs⟩

theorem NoBreak.cstr {s : Bytes} (h : NoBreak s) : Obj.CStr s := fun c hc => (h c hc).1

theorem mem_numbered {ss : List Bytes} {x : Bytes} {i : Nat} (h : FMap.get (numbered ss) x = some i) : x ∈ ss := by
  rw [← numbered_names ss]
  exact List.mem_map_of_mem (FMap.mem_of_get h)

theorem goodOf (hP : Program T pre b) (hs : (bytecode T pre b o cs).length ≤ 2147483647) (hF : FOk F) (hE : Obj.StrcmpLaw E.sc) (hL : LibOk (ctxOf T pre b o cs E F L)) :
    Good (ctxOf T pre b o cs E F L) where
  size := hs
  funs := hF
  law := hE
  cstr x i h := NoBreak.cstr (hP.strs x (mem_numbered h))
  small x i h := by
    have := numbered_le _ (FMap.mem_of_get h)
    simp only at this
    omega
  lib := hL

theorem good (hP : Program T pre b) (hs : (bytecode T pre b o cs).length ≤ 2147483647) (hF : FOk F) (hE : Obj.StrcmpLaw E.sc) : Good (ctx T pre b o cs E F) :=
  goodOf hP hs hF hE (noLib_ok rfl)

theorem regLines_named (strs : List (Bytes × Nat)) (es : List EC) : es.flatMap (regLines strs) = (named es).flatMap (regLines strs) := by
  induction es with
  | nil => rfl
  | cons e es ih =>
    unfold named at ih ⊢
    rw [List.flatMap_cons, List.filter_cons, ih]
    cases hs : e.sym with
    | none =>
      rw [if_neg (by simp)]
      unfold regLines
      rw [hs]
      rfl
    | some x =>
      rw [if_pos (by simp), List.flatMap_cons]

/-- The functions' code lies where their names are registered. -/
theorem Result.chunkOf (w : Bool) (h : Result T pre b o cs) (hP : Program T pre b) (he : E.endian = T.endian) (hs : (bytecode T pre b o cs).length ≤ 2147483647) :
    List.Forall₂ (ChunkOf (ctxOf T pre b o cs E F ⟨Lang.noLib, 0, w⟩)) (named (chunksOf o)) (functions b) := by
  have hn : named (chunksOf o) = named o.news := rfl
  rw [hn]
  have hpl : Placed (ctxOf T pre b o cs E F ⟨Lang.noLib, 0, w⟩) (chunksOf o) := by
    rw [← h.chunks]
    exact (h.linked he hs).placed hP.nums h.code
  have hb : BaseOk (base o.cs) o.cs.strings := by
    obtain ⟨b', k1, k2⟩ : Tabs o.cs .top := (comp_tabs b .val) (start pre) o .top h.comp (tabs_start pre)
    rw [base_eq (ts := []) k1]
    exact k2
  have hgens := ((comp_keep b .val).2 (start pre) o .top (tabs_start pre) h.comp).2
  have hd := h.defs
  rw [List.forall₂_iff_zip] at hd ⊢
  refine ⟨hd.1, fun {e d} hm => ?_⟩
  obtain ⟨c, o', g, k1, k2, k3, k4, k5, k6⟩ := hd.2 hm
  have hem : e ∈ named o.news := (List.of_mem_zip hm).1
  have hdm : d ∈ functions b := (List.of_mem_zip hm).2
  have hen : e ∈ o.news := (List.mem_filter.mp hem).1
  obtain ⟨s, h1, _⟩ := (hgens e hen d.1 g k1).resolve_left (hP.once d hdm)
  refine ⟨g, s.pos, k1, ?_, fun hnd => ?_⟩
  · have := (hb _ (FMap.mem_of_get h1)).2
    rw [h.strings] at this
    exact this
  · obtain ⟨q, h2, h3⟩ := hpl e (List.mem_cons_of_mem _ hen)
    refine ⟨c, o', _, q, k2 hnd, k3, ?_, fun x hx => hpl x (List.mem_cons_of_mem _ (k6 x hx)), rfl, ?_, h3⟩
    · show Sub o'.cs.strings (numbered (stringsOf pre b))
      rw [← h.strings]
      exact k5
    · rw [k4] at h2
      exact h2

theorem stringsOf_nodup (pre : List Bytes) (b : Ast) : (stringsOf pre b).Nodup := firsts_nodup _

theorem bytecode_eq (T : Tools) (pre : List Bytes) (b : Ast) (o : Out) (cs : List Chunk) :
    ∃ post, bytecode T pre b o cs = mem16 T.endian (stringsOf pre b).length ++ (stringBytes (stringsOf pre b) ++ post) := by
  refine ⟨(Item.blank :: (((chunksOf o).flatMap (regLines (numbered (stringsOf pre b)))).flatMap (lnItems T none) ++ .ins 0 none none :: cs.flatMap (chunkItems T))).flatMap
    (Item.bytes T.endian (lookIn 0 (itemsOf T pre b o cs))), ?_⟩
  unfold bytecode
  conv_lhs => rw [itemsOf, items, List.flatMap_cons, List.flatMap_append]
  rw [List.flatMap_map]
  rfl

theorem mem16_length (h : Endian) (n : Nat) : (mem16 h n).length = 2 := by cases h <;> rfl

/-- The machine after loading. -/
def loaded (T : Tools) (pre : List Bytes) (b : Ast) (o : Out) (cs : List Chunk) : VM :=
  { VM.new with strings := tableOf (stringsOf pre b), state := .ready, error := .none, code := bytecode T pre b o cs, pc := ((2 + (stringBytes (stringsOf pre b)).length : Nat) : Int) }

theorem load_ok (hP : Program T pre b) (he : E.endian = T.endian) : VM.load E (bytecode T pre b o cs) VM.new = .ok (loaded T pre b o cs) := by
  obtain ⟨post, hb⟩ := bytecode_eq T pre b o cs
  have hc := hP.count
  have h1 : rd16 E.endian (bytecode T pre b o cs) 0 = .ok (stringsOf pre b).length := by
    rw [hb, he]
    exact rd16_mem16 _ _ (by omega)
  have h2 := loadStrings_ok (code := bytecode T pre b o cs) (stringsOf pre b) [] (mem16 T.endian (stringsOf pre b).length) hb (stringsOf_nodup pre b)
    (fun s hs => NoBreak.cstr (hP.strs s hs)) (by simpa using hc)
  rw [mem16_length] at h2
  unfold VM.load
  rw [h1, Res.ok_bind]
  show (loadStrings (bytecode T pre b o cs) (stringsOf pre b).length 2 (tableOf []) >>= _) = _
  rw [h2, Res.ok_bind, List.length_append, mem16_length]
  rfl

theorem loaded_inv (hP : Program T pre b) (hs : (bytecode T pre b o cs).length ≤ 2147483647) : VInv (loaded T pre b o cs) := by
  obtain ⟨post, hb⟩ := bytecode_eq T pre b o cs
  have hl : 2 + (stringBytes (stringsOf pre b)).length ≤ (bytecode T pre b o cs).length := by
    rw [hb, List.length_append, List.length_append, mem16_length]
    omega
  refine { VM.new_inv with strings := table_inv (stringsOf_nodup pre b) hP.count, cells := ?_, depth := fun _ => rfl, size := hs, pcr := ?_ }
  · rintro a c ⟨m, h, _⟩; cases h
  · exact ⟨by show _ ≤ ((2 + (stringBytes (stringsOf pre b)).length : Nat) : Int); omega, by show ((2 + (stringBytes (stringsOf pre b)).length : Nat) : Int) ≤ _; omega⟩

/-- The loaded machine is at the code that registers the functions. -/
theorem loaded_pt (w : Bool) (hP : Program T pre b) (hs : (bytecode T pre b o cs).length ≤ 2147483647) :
    Pt (ctxOf T pre b o cs E F ⟨Lang.noLib, 0, w⟩) (loaded T pre b o cs) [] (2 + (stringBytes (stringsOf pre b)).length) [] ⟨[], [], .top⟩ (loaded T pre b o cs) := by
  have hc := hP.count
  refine ⟨[], [], {
    core := {
      inv := loaded_inv hP hs
      ready := rfl
      base := rfl
      strs := ?_
      len := rfl
      nodup := List.nodup_nil
      low := by intro a ha; cases ha
      things := by intro l a t c h; cases h
      globals := fun x i h => ⟨fun a h => (by cases h), fun _ => rfl⟩ }
    sc := rfl
    pc := rfl
    stack := rfl
    reps := .nil
    rest := rfl
    tail := rfl
    depth := rfl
    evo := Evo.refl _
    pre := List.prefix_refl _
    floor := Nat.zero_le _ }⟩
  intro x i h
  have h : FMap.get (numbered (stringsOf pre b)) x = some i := h
  rw [numbered_mod (by omega)] at h
  exact table_id.mpr ⟨List.mk_mem_zipIdx_iff_getElem?.mp (FMap.mem_of_get h), rfl⟩

theorem strs_size (ss : List Bytes) : progSize (ss.map Item.str) = (stringBytes ss).length := by
  unfold progSize stringBytes
  rw [List.length_flatMap, List.map_map]
  congr 1
  refine List.map_congr_left fun s _ => ?_
  simp [Item.size]

/-- **The machine stops before the first statement, with the functions of the program defined.** -/
theorem bootsOf (w : Bool) (h : Result T pre b o cs) (hP : Program T pre b) (he : E.endian = T.endian) (hs : (bytecode T pre b o cs).length ≤ 2147483647) (hF : FOk F) (hE : Obj.StrcmpLaw E.sc)
    {s0 : St} (hi : Lang.initial b = .ok () s0) :
    ∃ vm1 n, (∀ m, n ≤ m → boot E F m (loaded T pre b o cs) = .ok vm1) ∧ s0.scope = .top ∧
      Pt (ctxOf T pre b o cs E F ⟨Lang.noLib, 0, w⟩) (loaded T pre b o cs) [] ((ctxOf T pre b o cs E F ⟨Lang.noLib, 0, w⟩).pos 0) [] s0 vm1 := by
  have g : Good (ctxOf T pre b o cs E F ⟨Lang.noLib, 0, w⟩) := goodOf hP hs hF hE (noLib_ok rfl)
  have hl := h.linked (E := E) (F := F) (L := ⟨Lang.noLib, 0, w⟩) he hs
  obtain ⟨c, cs', rfl⟩ : ∃ c cs', cs = c :: cs' := by
    cases cs with
    | nil => have := h.chunks; cases this
    | cons c cs' => exact ⟨c, cs', rfl⟩
  have hc0 : c.label = 0 := by
    have := h.chunks
    rw [List.map_cons] at this
    have := (List.cons.inj this).1
    exact congrArg EC.label this
  -- where the registration code lies
  have hitems : itemsOf T pre b o (c :: cs') = ([.count (stringsOf pre b).length] ++ ((stringsOf pre b).map .str ++ [.blank])) ++
      ((((chunksOf o).flatMap (regLines (numbered (stringsOf pre b)))).map (fun l => (l, (none : Option Pos)))).flatMap (fun e => lnItems T e.2 e.1) ++
        (.ins 0 none none :: (c :: cs').flatMap (chunkItems T))) := by
    unfold itemsOf items
    rw [List.flatMap_map]
    simp
  have hsz : progSize ([.count (stringsOf pre b).length] ++ ((stringsOf pre b).map .str ++ [.blank])) = 2 + (stringBytes (stringsOf pre b)).length := by
    rw [progSize_append, progSize_append, strs_size]
    rfl
  have hregs := hl.lns hP.nums _ _ _ hitems (by
    intro e he
    obtain ⟨l, hl, rfl⟩ := List.mem_map.mp he
    exact h.regs l hl)
  rw [hsz, List.map_map, show (Prod.fst ∘ fun l : Ln => (l, (none : Option Pos))) = id from rfl, List.map_id] at hregs
  -- the end of the registration code
  have hitems2 := hitems
  rw [← List.append_assoc] at hitems2
  have hnop := hl.op hitems2 (by decide)
  have hitems3 := hitems2
  rw [List.flatMap_cons, show chunkItems T c = Item.blank :: .label (labelText c.label) none :: codeItems T c.code from rfl] at hitems3
  rw [show ∀ (A B C : List Item) (x y : Item) (l : Item), A ++ x :: ((y :: l :: B) ++ C) = (A ++ [x, y]) ++ l :: (B ++ C) by intros; simp] at hitems3
  have hpos := (h.links.look hitems3).1
  have hlt := h.links.ends hitems3
  rw [← bytecode_length] at hlt
  rw [progSize_append, show progSize [Item.ins 0 none none, Item.blank] = 1 from rfl, hc0] at hpos
  rw [progSize_append, show progSize [Item.ins 0 none none, Item.blank] = 1 from rfl] at hlt
  obtain ⟨vm1, k, p1, p2, p3⟩ := boot_regs g (named (chunksOf o)) (functions b) (h.chunkOf w hP he hs) (loaded_pt w hP hs) rfl (by rw [← regLines_named]; exact hregs) (by show _ < (bytecode T pre b o (c :: cs')).length; omega) hi
  obtain ⟨vm2, p4, p5⟩ := pt_nop g p1 ⟨hnop, rfl⟩ hlt
  refine ⟨vm2, k + 1, fun m hm => ?_, p2, ?_⟩
  · obtain ⟨m, rfl⟩ := Nat.exists_eq_add_of_le hm
    rw [show k + 1 + m = k + (m + 1) by omega]
    refine (p3 (m + 1)).trans ?_
    rw [boot, p1.fetch hnop, Res.ok_bind, if_pos rfl]
    exact p4
  · rw [show (ctxOf T pre b o (c :: cs') E F ⟨Lang.noLib, 0, w⟩).pos 0 = lookIn 0 (itemsOf T pre b o (c :: cs')) (labelText 0) from rfl, hpos]
    exact p5

/-- The same without functions of the host. -/
theorem boots (h : Result T pre b o cs) (hP : Program T pre b) (he : E.endian = T.endian) (hs : (bytecode T pre b o cs).length ≤ 2147483647) (hF : FOk F) (hE : Obj.StrcmpLaw E.sc)
    {s0 : St} (hi : Lang.initial b = .ok () s0) :
    ∃ vm1 n, (∀ m, n ≤ m → boot E F m (loaded T pre b o cs) = .ok vm1) ∧ s0.scope = .top ∧
      Pt (ctx T pre b o cs E F) (loaded T pre b o cs) [] ((ctx T pre b o cs E F).pos 0) [] s0 vm1 := bootsOf false h hP he hs hF hE hi

/-- **A machine before the first statement of a program runs the program**, up to the instruction that ends programs. -/
theorem runsDone (h : Result T pre b o cs) (hP : Program T pre b) (he : E.endian = T.endian) (hs : (bytecode T pre b o cs).length ≤ 2147483647) (hF : FOk F) (hE : Obj.StrcmpLaw E.sc) (hL : LibOk (ctxOf T pre b o cs E F L))
    {vm0 vm : VM} {ρ0 : List Nat} {s : St} (hsc : s.scope = .top) (hv : vm0.rest = []) (hp : Pt (ctxOf T pre b o cs E F L) vm0 ρ0 ((ctxOf T pre b o cs E F L).pos 0) [] s vm) (n : Nat) :
    Full (ctxOf T pre b o cs E F L) vm ∨ match Lang.exec ⟨E, T.strtof, L.lib⟩ n b s with
    | .ok vs s' => ∃ k vm1 q, Pt (ctxOf T pre b o cs E F L) vm0 ρ0 q vs.reverse s' vm1 ∧ stepN E F k vm = .ok { vm1 with state := .done } ∧ q < (ctxOf T pre b o cs E F L).code.length
    | .ret _ _ => False
    | .err e => ∃ k vm1, stepN E F k vm = .ok vm1 ∧ vm1.state = .error ∧ vm1.error = e
    | .odd => True
    | .time => ∃ k vm1, n ≤ k ∧ stepN E F k vm = .ok vm1 ∧ vm1.state = .ready := by
  have g : Good (ctxOf T pre b o cs E F L) := goodOf hP hs hF hE hL
  have hpl : Placed (ctxOf T pre b o cs E F L) (chunksOf o) := by
    rw [← h.chunks]
    exact (h.linked he hs).placed hP.nums h.code
  obtain ⟨q', h1, h2⟩ := hpl _ List.mem_cons_self
  obtain ⟨q, h3, h4⟩ := codeAt_append.mp h1
  obtain ⟨q1, h5, q2, h6, h7⟩ := h4
  cases h5
  cases h7
  have hlt : q < (ctxOf T pre b o cs E F L).code.length := by
    have := h6.2
    omega
  have hat : At (ctxOf T pre b o cs E F L) o ((ctxOf T pre b o cs E F L).pos 0) q := by
    refine ⟨?_, fun x hx => hpl x (List.mem_cons_of_mem _ hx), h3, hlt⟩
    show Sub o.cs.strings (numbered (stringsOf pre b))
    rw [← h.strings]
    exact fun _ _ h => h
  have := sim_exec g n h.comp hat (by rw [hsc]; exact tabs_start pre) hp
  rcases this with this | this
  · exact .inl this
  refine .inr ?_
  show match Lang.exec (ctxOf T pre b o cs E F L).host n b s with
    | .ok vs s' => _
    | .ret _ _ => _
    | .err e => _
    | .odd => _
    | .time => _
  cases hx : Lang.exec (ctxOf T pre b o cs E F L).host n b s with
  | ok vs s' =>
    rw [hx] at this
    obtain ⟨k, vm', k1, k2⟩ := this
    obtain ⟨vm1, k3, k4⟩ := pt_done g k2 h6
    rw [List.append_nil] at k3
    exact ⟨k + 1, vm1, q, k3, Ctx.stepN_ok (stepN_add k1 (stepN_one k4)), hlt⟩
  | ret v s' =>
    rw [hx] at this
    obtain ⟨k, vm', _, ρ, a, ra, S, rs, k1, _⟩ := this
    rw [hv] at k1
    cases k1
  | err e =>
    rw [hx] at this
    obtain ⟨k, vm', k1, k2⟩ := this
    exact ⟨k, vm', Ctx.stepN_ok k1, k2⟩
  | odd => trivial
  | time =>
    rw [hx] at this
    obtain ⟨k, vm', k0, k1, k2⟩ := this
    exact ⟨k, vm', k0, Ctx.stepN_ok k1, k2⟩

/-- **A machine before the first statement of a program runs the program.** -/
theorem runsOf (h : Result T pre b o cs) (hP : Program T pre b) (he : E.endian = T.endian) (hs : (bytecode T pre b o cs).length ≤ 2147483647) (hF : FOk F) (hE : Obj.StrcmpLaw E.sc) (hL : LibOk (ctxOf T pre b o cs E F L))
    {vm0 vm : VM} {ρ0 : List Nat} {s : St} (hsc : s.scope = .top) (hv : vm0.rest = []) (hp : Pt (ctxOf T pre b o cs E F L) vm0 ρ0 ((ctxOf T pre b o cs E F L).pos 0) [] s vm) (n : Nat) :
    Full (ctxOf T pre b o cs E F L) vm ∨ match Lang.exec ⟨E, T.strtof, L.lib⟩ n b s with
    | .ok vs s' => ∃ k vm1 q, Pt (ctxOf T pre b o cs E F L) vm0 ρ0 q vs.reverse s' vm1 ∧ stepN E F k vm = .ok { vm1 with state := .done }
    | .ret _ _ => False
    | .err e => ∃ k vm1, stepN E F k vm = .ok vm1 ∧ vm1.state = .error ∧ vm1.error = e
    | .odd => True
    | .time => ∃ k vm1, n ≤ k ∧ stepN E F k vm = .ok vm1 ∧ vm1.state = .ready := by
  refine (runsDone h hP he hs hF hE hL hsc hv hp n).imp_right fun hx => ?_
  cases hr : Lang.exec ⟨E, T.strtof, L.lib⟩ n b s with
  | ok vs s' =>
    rw [hr] at hx
    obtain ⟨k, vm1, q, h1, h2, _⟩ := hx
    exact ⟨k, vm1, q, h1, h2⟩
  | _ => rw [hr] at hx; exact hx

/-- The same without functions of the host. -/
theorem runs (h : Result T pre b o cs) (hP : Program T pre b) (he : E.endian = T.endian) (hs : (bytecode T pre b o cs).length ≤ 2147483647) (hF : FOk F) (hE : Obj.StrcmpLaw E.sc)
    {vm0 vm : VM} {ρ0 : List Nat} {s : St} (hsc : s.scope = .top) (hv : vm0.rest = []) (hp : Pt (ctx T pre b o cs E F) vm0 ρ0 ((ctx T pre b o cs E F).pos 0) [] s vm) (n : Nat) :
    match Lang.exec ⟨E, T.strtof, Lang.noLib⟩ n b s with
    | .ok vs s' => ∃ k vm1 q, Pt (ctx T pre b o cs E F) vm0 ρ0 q vs.reverse s' vm1 ∧ stepN E F k vm = .ok { vm1 with state := .done }
    | .ret _ _ => False
    | .err e => ∃ k vm1, stepN E F k vm = .ok vm1 ∧ vm1.state = .error ∧ vm1.error = e
    | .odd => True
    | .time => ∃ k vm1, n ≤ k ∧ stepN E F k vm = .ok vm1 ∧ vm1.state = .ready := by
  rcases runsOf h hP he hs hF hE (noLib_ok rfl) hsc hv hp n with hf | hx
  · cases hf.1
  · exact hx

end Buzz.Link
