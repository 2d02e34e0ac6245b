import Verif.Syntax

/-
A parser for the grammar of `Verif/Syntax.lean`, written for the specification only (it is not the compiler's parser): what it finds is
a phrase of the grammar.
-/
namespace Buzz.Lang

open Buzz.Msg Buzz.Lex Buzz.VM

/-- What to read: a phrase, or the continuation of a phrase `a`. -/
inductive Goal where
  | cond | logic | logicR (a : Ast) | cmp | expr | entries (a : Ast) | sum | sumR (a : Ast) | prod | prodR (a : Ast) | modu | moduR (a : Ast)
  | pow | shift | shiftR (a : Ast) (e : Bool) | andor | andorR (a : Ast) (e : Bool) | bnot | opnd | ref | refR (a : Ast) | args | argsR (a : Ast)
  | simple | stat | sub | stats | blk

/-- The operator of a token. -/
def opOf : Cat → T2 → Option Bin
  | .logic, (.landor, [97, 110, 100]) => some .land
  | .logic, (.landor, [111, 114]) => some .lor
  | .cmp, (.cmp, [61, 61]) => some .eq
  | .cmp, (.cmp, [33, 61]) => some .neq
  | .cmp, (.cmp, [60]) => some .lt
  | .cmp, (.cmp, [60, 61]) => some .lte
  | .cmp, (.cmp, [62]) => some .gt
  | .cmp, (.cmp, [62, 61]) => some .gte
  | .sum, (.addsub, [43]) => some .add
  | .sum, (.addsub, [45]) => some .sub
  | .prod, (.muldiv, [42]) => some .mul
  | .prod, (.muldiv, [47]) => some .div
  | .modu, (.mod, [37]) => some .mod
  | .pow, (.pow, [94]) => some .pow
  | .shift false, (.lrshift, [60, 60]) => some .shl
  | .shift false, (.lrshift, [62, 62]) => some .shr
  | .andor false, (.bandor, [38]) => some .band
  | .andor false, (.bandor, [124]) => some .bor
  | _, _ => none

/-- The operator at the beginning of the tokens, with the tokens after it. -/
def headOp (c : Cat) : List T2 → Option (T2 × Bin × List T2)
  | [] => none
  | t :: r => (opOf c t).map (fun o => (t, o, r))

/-- The key of a token. -/
def keyOf : T2 → Option Key
  | (.id, s) => some (.name s)
  | (.const, t) => some (.num t)
  | _ => none

/-- Parameters. -/
def idsOf : List T2 → Option (List Bytes × List T2)
  | (.id, x) :: (.listsep, _) :: r =>
    match idsOf r with
    | some (y :: ys, r) => some (x :: y :: ys, r)
    | _ => none
  | (.id, x) :: r => some ([x], r)
  | r => some ([], r)

/-- The tokens after one of a type. -/
def eat (t : TT) : List T2 → Option (List T2)
  | [] => none
  | u :: r => if u.1 = t then some r else none

/-- Whether the next token is of a type. -/
def next (t : TT) : List T2 → Bool
  | [] => false
  | u :: _ => decide (u.1 = t)

/-- Calls. -/
def isCall : Ast → Bool
  | .call _ _ => true
  | _ => false

/-- The phrase at the beginning of the tokens, whether it ends in an operand with a sign, and the tokens after it. -/
def phrase : Nat → Goal → List T2 → Option (Ast × Bool × List T2)
  | 0, _, _ => none
  | n + 1, .cond, ts =>
    if next .lnot ts then do
      let (a, _, r) ← phrase n .cond ts.tail
      some (.un .lnot a, false, r)
    else phrase n .logic ts
  | n + 1, .logic, ts => do
    let (a, _, r) ← phrase n .cmp ts
    phrase n (.logicR a) r
  | n + 1, .logicR a, ts =>
    match headOp .logic ts with
    | some (_, o, r) => do
      let (b, _, r) ← phrase n .cmp r
      phrase n (.logicR (.bin o a b)) r
    | none => some (a, false, ts)
  | n + 1, .cmp, ts => do
    let (a, _, r) ← phrase n .expr ts
    match headOp .cmp r with
    | some (_, o, r) => do
      let (b, _, r) ← phrase n .expr r
      some (.bin o a b, false, r)
    | none => some (a, false, r)
  | n + 1, .expr, ts =>
    if next .blockopen ts then
      if next .blockclose ts.tail then some (.tnew, false, ts.tail.tail)
      else do
        let r ← eat .dot ts.tail
        match r with
        | [] => none
        | t :: r => do
          let k ← keyOf t
          let r ← eat .assign r
          let (v, _, r) ← phrase n .expr r
          let (a, _, r) ← phrase n (.entries (.tset .tnew k v)) r
          let r ← eat .blockclose r
          some (a, false, r)
    else phrase n .sum ts
  | n + 1, .entries a, ts =>
    if next .listsep ts then do
      let r ← eat .dot ts.tail
      match r with
      | [] => none
      | t :: r => do
        let k ← keyOf t
        let r ← eat .assign r
        let (v, _, r) ← phrase n .expr r
        phrase n (.entries (.tset a k v)) r
    else some (a, false, ts)
  | n + 1, .sum, ts => do
    let (a, _, r) ← phrase n .prod ts
    phrase n (.sumR a) r
  | n + 1, .sumR a, ts =>
    match headOp .sum ts with
    | some (_, o, r) => do
      let (b, _, r) ← phrase n .prod r
      phrase n (.sumR (.bin o a b)) r
    | none => some (a, false, ts)
  | n + 1, .prod, ts => do
    let (a, _, r) ← phrase n .modu ts
    phrase n (.prodR a) r
  | n + 1, .prodR a, ts =>
    match headOp .prod ts with
    | some (_, o, r) => do
      let (b, _, r) ← phrase n .modu r
      phrase n (.prodR (.bin o a b)) r
    | none => some (a, false, ts)
  | n + 1, .modu, ts => do
    let (a, _, r) ← phrase n .pow ts
    phrase n (.moduR a) r
  | n + 1, .moduR a, ts =>
    match headOp .modu ts with
    | some (_, o, r) => do
      let (b, _, r) ← phrase n .pow r
      phrase n (.moduR (.bin o a b)) r
    | none => some (a, false, ts)
  | n + 1, .pow, ts => do
    let (a, e, r) ← phrase n .shift ts
    match headOp .pow r with
    | some (_, o, r) =>
      if e then none
      else do
        let (b, _, r) ← phrase n .pow r
        some (.bin o a b, false, r)
    | none => some (a, false, r)
  | n + 1, .shift, ts => do
    let (a, e, r) ← phrase n .andor ts
    phrase n (.shiftR a e) r
  | n + 1, .shiftR a e, ts =>
    match headOp (.shift false) ts with
    | some (_, o, r) =>
      if e then none
      else do
        let (b, e, r) ← phrase n .andor r
        phrase n (.shiftR (.bin o a b) e) r
    | none => some (a, e, ts)
  | n + 1, .andor, ts => do
    let (a, e, r) ← phrase n .bnot ts
    phrase n (.andorR a e) r
  | n + 1, .andorR a e, ts =>
    match headOp (.andor false) ts with
    | some (_, o, r) =>
      if e then none
      else do
        let (b, e, r) ← phrase n .bnot r
        phrase n (.andorR (.bin o a b) e) r
    | none => some (a, e, ts)
  | n + 1, .bnot, ts =>
    if next .bnot ts then do
      let (a, e, r) ← phrase n .bnot ts.tail
      some (.un .bnot a, e, r)
    else phrase n .opnd ts
  | n + 1, .opnd, ts =>
    match ts with
    | (.fun_, _) :: r => do
      let r ← eat .paropen r
      let (xs, r) ← idsOf r
      let r ← eat .parclose r
      let (b, _, r) ← phrase n .blk r
      some (.lam xs b, false, r)
    | (.nil, _) :: r => some (.nil, false, r)
    | (.const, t) :: r => some (.num t, false, r)
    | (.string, s) :: r => some (.str s, false, r)
    | (.paropen, _) :: r => do
      let (a, _, r) ← phrase n .cond r
      let r ← eat .parclose r
      some (a, false, r)
    | (.addsub, [43]) :: (.const, t) :: r => some (.num (43 :: t), false, r)
    | (.addsub, [45]) :: (.const, t) :: r => some (.num (45 :: t), false, r)
    | (.addsub, [43]) :: r => do
      let (a, _, r) ← phrase n .pow r
      some (a, true, r)
    | (.addsub, [45]) :: r => do
      let (a, _, r) ← phrase n .pow r
      some (.un .unm a, true, r)
    | _ => do
      let (a, _, r) ← phrase n .ref ts
      some (a, false, r)
  | n + 1, .ref, ts =>
    match ts with
    | (.id, x) :: r => phrase n (.refR (.id x)) r
    | _ => none
  | n + 1, .refR a, ts =>
    match ts with
    | (.dot, _) :: (.id, s) :: r => phrase n (.refR (.field a s)) r
    | (.idxopen, _) :: r => do
      let (e, _, r) ← phrase n .expr r
      let r ← eat .idxclose r
      phrase n (.refR (.index a e)) r
    | (.paropen, _) :: (.parclose, _) :: r => phrase n (.refR (.call a .noArg)) r
    | (.paropen, _) :: r => do
      let (e, _, r) ← phrase n .args r
      let r ← eat .parclose r
      phrase n (.refR (.call a e)) r
    | _ => some (a, false, ts)
  | n + 1, .args, ts => do
    let (a, _, r) ← phrase n .cond ts
    phrase n (.argsR (.arg .noArg a)) r
  | n + 1, .argsR a, ts =>
    if next .listsep ts then do
      let (b, _, r) ← phrase n .cond ts.tail
      phrase n (.argsR (.arg a b)) r
    else some (a, false, ts)
  | n + 1, .simple, ts =>
    if next .return_ ts then
      if ts.tail.isEmpty || next .blockclose ts.tail then some (.ret0, false, ts.tail)
      else do
        let (a, _, r) ← phrase n .cond ts.tail
        some (.ret a, false, r)
    else do
      let (a, _, r) ← phrase n .ref ts
      if next .assign r then
        if isCall a then none
        else do
          let (e, _, r) ← phrase n .expr r.tail
          some (.assign a e, false, r)
      else if isCall a then some (.run a, false, r)
      else none
  | n + 1, .stat, ts =>
    match ts with
    | (.var, _) :: (.id, x) :: (.assign, _) :: r => do
      let (e, _, r) ← phrase n .expr r
      some (.init x e, false, r)
    | (.var, _) :: (.id, x) :: r => some (.decl x, false, r)
    | (.fun_, _) :: (.id, f) :: r => do
      let r ← eat .paropen r
      let (xs, r) ← idsOf r
      let r ← eat .parclose r
      if next .string r then do
        let (b, _, r) ← phrase n .blk r.tail
        some (.func f xs b, false, r)
      else do
        let (b, _, r) ← phrase n .blk r
        some (.func f xs b, false, r)
    | (.if_, _) :: r => do
      let r ← eat .paropen r
      let (c, _, r) ← phrase n .cond r
      let r ← eat .parclose r
      let (a, _, r) ← phrase n .sub r
      if next .else_ r then
        if bare a || openIf a then none
        else do
          let (b, _, r) ← phrase n .sub r.tail
          some (.ite c a b, false, r)
      else some (.ifs c a, false, r)
    | (.while_, _) :: r => do
      let r ← eat .paropen r
      let (c, _, r) ← phrase n .cond r
      let r ← eat .parclose r
      let (a, _, r) ← phrase n .sub r
      some (.while_ c a, false, r)
    | (.for_, _) :: r => do
      let r ← eat .paropen r
      let (i, _, r) ← phrase n .simple r
      let r ← eat .listsep r
      let (c, _, r) ← phrase n .cond r
      let r ← eat .listsep r
      let (k, _, r) ← phrase n .simple r
      let r ← eat .parclose r
      let (a, _, r) ← phrase n .sub r
      if bare i || bare k then none else some (.for_ i c k a, false, r)
    | _ => phrase n .simple ts
  | n + 1, .sub, ts =>
    if next .blockopen ts then do
      let (b, _, r) ← phrase n .blk ts
      some (.block b, false, r)
    else if ts.isEmpty || next .blockclose ts then some (.skip, false, ts)
    else phrase n .stat ts
  | n + 1, .stats, ts =>
    if ts.isEmpty || next .blockclose ts then some (.skip, false, ts)
    else do
      let (s, _, r) ← phrase n .stat ts
      if bare s then some (.seq s .skip, false, r)
      else do
        let (l, _, r) ← phrase n .stats r
        some (.seq s l, false, r)
  | n + 1, .blk, ts => do
    let r ← eat .blockopen ts
    let (b, _, r) ← phrase n .stats r
    let r ← eat .blockclose r
    some (b, false, r)

/-- What has been read for a goal. -/
def Read : Goal → List T2 → Ast → Bool → Prop
  | .cond, us, a, _ => Syn .cond us a
  | .logic, us, a, _ => Syn .logic us a
  | .logicR x, us, a, _ => ∀ vs, Syn .logic vs x → Syn .logic (vs ++ us) a
  | .cmp, us, a, _ => Syn .cmp us a
  | .expr, us, a, _ => Syn .expr us a
  | .entries x, us, a, _ => ∀ vs, Syn .table vs x → Syn .table (vs ++ us) a
  | .sum, us, a, _ => Syn .sum us a
  | .sumR x, us, a, _ => ∀ vs, Syn .sum vs x → Syn .sum (vs ++ us) a
  | .prod, us, a, _ => Syn .prod us a
  | .prodR x, us, a, _ => ∀ vs, Syn .prod vs x → Syn .prod (vs ++ us) a
  | .modu, us, a, _ => Syn .modu us a
  | .moduR x, us, a, _ => ∀ vs, Syn .modu vs x → Syn .modu (vs ++ us) a
  | .pow, us, a, _ => Syn .pow us a
  | .shift, us, a, e => Syn (.shift e) us a
  | .shiftR x f, us, a, e => ∀ vs, Syn (.shift f) vs x → Syn (.shift e) (vs ++ us) a
  | .andor, us, a, e => Syn (.andor e) us a
  | .andorR x f, us, a, e => ∀ vs, Syn (.andor f) vs x → Syn (.andor e) (vs ++ us) a
  | .bnot, us, a, e => Syn (.bnot e) us a
  | .opnd, us, a, e => Syn (.opnd e) us a
  | .ref, us, a, _ => Syn .ref us a
  | .refR x, us, a, _ => ∀ vs, Syn .ref vs x → Syn .ref (vs ++ us) a
  | .args, us, a, _ => Syn .args us a
  | .argsR x, us, a, _ => ∀ vs, Syn .args vs x → Syn .args (vs ++ us) a
  | .simple, us, a, _ => Syn .simple us a
  | .stat, us, a, _ => Syn .stat us a
  | .sub, us, a, _ => Syn .sub us a
  | .stats, us, a, _ => Syn .stats us a
  | .blk, us, a, _ => Syn .blk us a

theorem opOf_sound {c : Cat} {t : T2} {o : Bin} (h : opOf c t = some o) : BinTok c t o := by
  unfold opOf at h
  split at h <;> first | cases h; constructor | cases h

theorem headOp_sound {c : Cat} {ts r : List T2} {t : T2} {o : Bin} (h : headOp c ts = some (t, o, r)) : ts = t :: r ∧ BinTok c t o := by
  cases ts with
  | nil => cases h
  | cons u us =>
    simp only [headOp] at h
    cases ho : opOf c u with
    | none => rw [ho] at h; cases h
    | some o' =>
      rw [ho] at h
      cases h
      exact ⟨rfl, opOf_sound ho⟩

theorem keyOf_sound {t : T2} {k : Key} (h : keyOf t = some k) : KeyTok t k := by
  unfold keyOf at h
  split at h <;> first | cases h; constructor | cases h

theorem eat_sound {t : TT} {ts r : List T2} (h : eat t ts = some r) : ∃ v, ts = (t, v) :: r := by
  cases ts with
  | nil => cases h
  | cons u us =>
    obtain ⟨x, v⟩ := u
    simp only [eat, Option.ite_none_right_eq_some, Option.some.injEq] at h
    exact ⟨v, by rw [h.1, h.2]⟩

theorem next_sound {t : TT} {ts : List T2} (h : next t ts = true) : ∃ v, ts = (t, v) :: ts.tail := by
  cases ts with
  | nil => cases h
  | cons u us =>
    obtain ⟨x, v⟩ := u
    have : x = t := by simpa [next] using h
    exact ⟨v, by rw [this]; rfl⟩

theorem isCall_sound {a : Ast} (h : isCall a = true) : ∃ f as, a = .call f as := by
  cases a <;> first | exact ⟨_, _, rfl⟩ | cases h

theorem idsOf_sound : ∀ (ts : List T2) {xs : List Bytes} {r : List T2}, idsOf ts = some (xs, r) → ∃ us, ts = us ++ r ∧ Ids us xs
  | (.id, x) :: (.listsep, v) :: r0, xs, r, h => by
    rw [idsOf] at h
    split at h
    · rename_i y ys r' h1
      cases h
      obtain ⟨us, rfl, h2⟩ := idsOf_sound r0 h1
      exact ⟨_, rfl, .more h2 (by simp)⟩
    · cases h
  | ts, xs, r, h => by
    unfold idsOf at h
    split at h
    · rename_i x v r0
      rcases h0 : idsOf r0 with _ | ⟨zs, r1⟩
      · rw [h0] at h; cases h
      · rw [h0] at h
        rcases zs with _ | ⟨y, ys⟩
        · cases h
        cases h
        obtain ⟨us, rfl, h2⟩ := idsOf_sound r0 h0
        exact ⟨_, rfl, .more h2 (by simp)⟩
    · cases h
      exact ⟨[_], rfl, .one⟩
    · cases h
      exact ⟨[], rfl, .nil⟩

theorem phrase_sound : ∀ (n : Nat) (g : Goal) (ts : List T2) {a : Ast} {e : Bool} {r : List T2}, phrase n g ts = some (a, e, r) → ∃ us, ts = us ++ r ∧ Read g us a e
  | 0, _, _, _, _, _, h => by cases h
  | n + 1, g, ts, a, e, r, h => by
    have ih := phrase_sound n
    cases g with
    | cond =>
      rw [phrase] at h
      split at h
      · rename_i h0
        obtain ⟨v, h0⟩ := next_sound h0
        simp only [Option.bind_eq_bind, Option.bind_eq_some_iff, Prod.exists] at h
        obtain ⟨b, f, q, h1, h2⟩ := h
        cases h2
        obtain ⟨us, h3, h4⟩ := ih _ _ h1
        exact ⟨(.lnot, v) :: us, by rw [h0, h3]; rfl, .not h4⟩
      · obtain ⟨us, h3, h4⟩ := ih _ _ h
        exact ⟨us, h3, .cond h4⟩
    | logic =>
      rw [phrase] at h
      simp only [Option.bind_eq_bind, Option.bind_eq_some_iff, Prod.exists] at h
      obtain ⟨b, f, q, h1, h2⟩ := h
      obtain ⟨us, h3, h4⟩ := ih _ _ h1
      obtain ⟨vs, h5, h6⟩ := ih _ _ h2
      exact ⟨us ++ vs, by rw [h3, h5, List.append_assoc], h6 us (.logic1 h4)⟩
    | logicR x =>
      rw [phrase] at h
      split at h
      · rename_i t o q h0
        obtain ⟨h0, ho⟩ := headOp_sound h0
        simp only [Option.bind_eq_bind, Option.bind_eq_some_iff, Prod.exists] at h
        obtain ⟨b, f, q, h1, h2⟩ := h
        obtain ⟨us, h3, h4⟩ := ih _ _ h1
        obtain ⟨vs, h5, h6⟩ := ih _ _ h2
        exact ⟨t :: us ++ vs, by rw [h0, h3, h5]; simp, fun ws hw => by rw [← List.append_assoc]; exact h6 _ (.logic hw ho h4)⟩
      · cases h
        exact ⟨[], rfl, fun ws hw => by rwa [List.append_nil]⟩
    | sum =>
      rw [phrase] at h
      simp only [Option.bind_eq_bind, Option.bind_eq_some_iff, Prod.exists] at h
      obtain ⟨b, f, q, h1, h2⟩ := h
      obtain ⟨us, h3, h4⟩ := ih _ _ h1
      obtain ⟨vs, h5, h6⟩ := ih _ _ h2
      exact ⟨us ++ vs, by rw [h3, h5, List.append_assoc], h6 us (.sum1 h4)⟩
    | sumR x =>
      rw [phrase] at h
      split at h
      · rename_i t o q h0
        obtain ⟨h0, ho⟩ := headOp_sound h0
        simp only [Option.bind_eq_bind, Option.bind_eq_some_iff, Prod.exists] at h
        obtain ⟨b, f, q, h1, h2⟩ := h
        obtain ⟨us, h3, h4⟩ := ih _ _ h1
        obtain ⟨vs, h5, h6⟩ := ih _ _ h2
        exact ⟨t :: us ++ vs, by rw [h0, h3, h5]; simp, fun ws hw => by rw [← List.append_assoc]; exact h6 _ (.sum hw ho h4)⟩
      · cases h
        exact ⟨[], rfl, fun ws hw => by rwa [List.append_nil]⟩
    | prod =>
      rw [phrase] at h
      simp only [Option.bind_eq_bind, Option.bind_eq_some_iff, Prod.exists] at h
      obtain ⟨b, f, q, h1, h2⟩ := h
      obtain ⟨us, h3, h4⟩ := ih _ _ h1
      obtain ⟨vs, h5, h6⟩ := ih _ _ h2
      exact ⟨us ++ vs, by rw [h3, h5, List.append_assoc], h6 us (.prod1 h4)⟩
    | prodR x =>
      rw [phrase] at h
      split at h
      · rename_i t o q h0
        obtain ⟨h0, ho⟩ := headOp_sound h0
        simp only [Option.bind_eq_bind, Option.bind_eq_some_iff, Prod.exists] at h
        obtain ⟨b, f, q, h1, h2⟩ := h
        obtain ⟨us, h3, h4⟩ := ih _ _ h1
        obtain ⟨vs, h5, h6⟩ := ih _ _ h2
        exact ⟨t :: us ++ vs, by rw [h0, h3, h5]; simp, fun ws hw => by rw [← List.append_assoc]; exact h6 _ (.prod hw ho h4)⟩
      · cases h
        exact ⟨[], rfl, fun ws hw => by rwa [List.append_nil]⟩
    | modu =>
      rw [phrase] at h
      simp only [Option.bind_eq_bind, Option.bind_eq_some_iff, Prod.exists] at h
      obtain ⟨b, f, q, h1, h2⟩ := h
      obtain ⟨us, h3, h4⟩ := ih _ _ h1
      obtain ⟨vs, h5, h6⟩ := ih _ _ h2
      exact ⟨us ++ vs, by rw [h3, h5, List.append_assoc], h6 us (.modu1 h4)⟩
    | moduR x =>
      rw [phrase] at h
      split at h
      · rename_i t o q h0
        obtain ⟨h0, ho⟩ := headOp_sound h0
        simp only [Option.bind_eq_bind, Option.bind_eq_some_iff, Prod.exists] at h
        obtain ⟨b, f, q, h1, h2⟩ := h
        obtain ⟨us, h3, h4⟩ := ih _ _ h1
        obtain ⟨vs, h5, h6⟩ := ih _ _ h2
        exact ⟨t :: us ++ vs, by rw [h0, h3, h5]; simp, fun ws hw => by rw [← List.append_assoc]; exact h6 _ (.modu hw ho h4)⟩
      · cases h
        exact ⟨[], rfl, fun ws hw => by rwa [List.append_nil]⟩
    | shift =>
      rw [phrase] at h
      simp only [Option.bind_eq_bind, Option.bind_eq_some_iff, Prod.exists] at h
      obtain ⟨b, f, q, h1, h2⟩ := h
      obtain ⟨us, h3, h4⟩ := ih _ _ h1
      obtain ⟨vs, h5, h6⟩ := ih _ _ h2
      exact ⟨us ++ vs, by rw [h3, h5, List.append_assoc], h6 us (.shift1 h4)⟩
    | shiftR x f =>
      rw [phrase] at h
      split at h
      · rename_i t o q h0
        obtain ⟨h0, ho⟩ := headOp_sound h0
        split at h
        · cases h
        rename_i hf
        rw [Bool.not_eq_true] at hf
        subst hf
        simp only [Option.bind_eq_bind, Option.bind_eq_some_iff, Prod.exists] at h
        obtain ⟨b, f, q, h1, h2⟩ := h
        obtain ⟨us, h3, h4⟩ := ih _ _ h1
        obtain ⟨vs, h5, h6⟩ := ih _ _ h2
        exact ⟨t :: us ++ vs, by rw [h0, h3, h5]; simp, fun ws hw => by rw [← List.append_assoc]; exact h6 _ (.shift hw ho h4)⟩
      · cases h
        exact ⟨[], rfl, fun ws hw => by rwa [List.append_nil]⟩
    | andor =>
      rw [phrase] at h
      simp only [Option.bind_eq_bind, Option.bind_eq_some_iff, Prod.exists] at h
      obtain ⟨b, f, q, h1, h2⟩ := h
      obtain ⟨us, h3, h4⟩ := ih _ _ h1
      obtain ⟨vs, h5, h6⟩ := ih _ _ h2
      exact ⟨us ++ vs, by rw [h3, h5, List.append_assoc], h6 us (.andor1 h4)⟩
    | andorR x f =>
      rw [phrase] at h
      split at h
      · rename_i t o q h0
        obtain ⟨h0, ho⟩ := headOp_sound h0
        split at h
        · cases h
        rename_i hf
        rw [Bool.not_eq_true] at hf
        subst hf
        simp only [Option.bind_eq_bind, Option.bind_eq_some_iff, Prod.exists] at h
        obtain ⟨b, f, q, h1, h2⟩ := h
        obtain ⟨us, h3, h4⟩ := ih _ _ h1
        obtain ⟨vs, h5, h6⟩ := ih _ _ h2
        exact ⟨t :: us ++ vs, by rw [h0, h3, h5]; simp, fun ws hw => by rw [← List.append_assoc]; exact h6 _ (.andor hw ho h4)⟩
      · cases h
        exact ⟨[], rfl, fun ws hw => by rwa [List.append_nil]⟩
    | cmp =>
      rw [phrase] at h
      simp only [Option.bind_eq_bind, Option.bind_eq_some_iff, Prod.exists] at h
      obtain ⟨b, f, q, h1, h2⟩ := h
      obtain ⟨us, h3, h4⟩ := ih _ _ h1
      split at h2
      · rename_i t o q' h0
        obtain ⟨h0, ho⟩ := headOp_sound h0
        simp only [Option.bind_eq_some_iff, Prod.exists] at h2
        obtain ⟨c, f', q'', h5, h6⟩ := h2
        cases h6
        obtain ⟨vs, h7, h8⟩ := ih _ _ h5
        exact ⟨us ++ t :: vs, by rw [h3, h0, h7]; simp, .cmp h4 ho h8⟩
      · cases h2
        exact ⟨us, h3, .cmp1 h4⟩
    | pow =>
      rw [phrase] at h
      simp only [Option.bind_eq_bind, Option.bind_eq_some_iff, Prod.exists] at h
      obtain ⟨b, f, q, h1, h2⟩ := h
      obtain ⟨us, h3, h4⟩ := ih _ _ h1
      split at h2
      · rename_i t o q' h0
        obtain ⟨h0, ho⟩ := headOp_sound h0
        split at h2
        · cases h2
        rename_i hf
        rw [Bool.not_eq_true] at hf
        subst hf
        simp only [Option.bind_eq_some_iff, Prod.exists] at h2
        obtain ⟨c, f', q'', h5, h6⟩ := h2
        cases h6
        obtain ⟨vs, h7, h8⟩ := ih _ _ h5
        exact ⟨us ++ t :: vs, by rw [h3, h0, h7]; simp, .pow h4 ho h8⟩
      · cases h2
        exact ⟨us, h3, .pow1 h4⟩
    | expr =>
      rw [phrase] at h
      split at h
      · rename_i h0
        obtain ⟨v, h0⟩ := next_sound h0
        split at h
        · rename_i h1
          obtain ⟨w, h1⟩ := next_sound h1
          cases h
          exact ⟨[(.blockopen, v), (.blockclose, w)], by rw [h0, h1]; rfl, .tab0⟩
        · simp only [Option.bind_eq_bind, Option.bind_eq_some_iff, Prod.exists] at h
          obtain ⟨q, h1, h2⟩ := h
          obtain ⟨w, h1⟩ := eat_sound h1
          split at h2
          · cases h2
          · rename_i t q' _
            simp only [Option.bind_eq_some_iff, Prod.exists] at h2
            obtain ⟨k, hk, q2, h3, b, f, q3, h4, c, f', q4, h5, q5, h6, h7⟩ := h2
            cases h7
            obtain ⟨x, h3⟩ := eat_sound h3
            obtain ⟨y, h6⟩ := eat_sound h6
            obtain ⟨us, h8, h9⟩ := ih _ _ h4
            obtain ⟨vs, h10, h11⟩ := ih _ _ h5
            refine ⟨(.blockopen, v) :: (((.dot, w) :: t :: (.assign, x) :: us) ++ vs ++ [(TT.blockclose, y)]), ?_, .tab (h11 _ (.entry1 (keyOf_sound hk) h9))⟩
            rw [h0, h1, h3, h8, h10, h6]
            simp
      · obtain ⟨us, h3, h4⟩ := ih _ _ h
        exact ⟨us, h3, .expr h4⟩
    | entries x =>
      rw [phrase] at h
      split at h
      · rename_i h0
        obtain ⟨v, h0⟩ := next_sound h0
        simp only [Option.bind_eq_bind, Option.bind_eq_some_iff, Prod.exists] at h
        obtain ⟨q, h1, h2⟩ := h
        obtain ⟨w, h1⟩ := eat_sound h1
        split at h2
        · cases h2
        · rename_i t q' _
          simp only [Option.bind_eq_some_iff, Prod.exists] at h2
          obtain ⟨k, hk, q2, h3, b, f, q3, h4, h5⟩ := h2
          obtain ⟨x, h3⟩ := eat_sound h3
          obtain ⟨us, h8, h9⟩ := ih _ _ h4
          obtain ⟨vs, h10, h11⟩ := ih _ _ h5
          refine ⟨(.listsep, v) :: (.dot, w) :: t :: (.assign, x) :: (us ++ vs), ?_, fun ws hw => ?_⟩
          · rw [h0, h1, h3, h8, h10]
            simp
          · have := h11 _ (.entry (u := v) (v := w) (w := x) hw (keyOf_sound hk) h9)
            simpa using this
      · cases h
        exact ⟨[], rfl, fun ws hw => by rwa [List.append_nil]⟩
    | bnot =>
      rw [phrase] at h
      split at h
      · rename_i h0
        obtain ⟨v, h0⟩ := next_sound h0
        simp only [Option.bind_eq_bind, Option.bind_eq_some_iff, Prod.exists] at h
        obtain ⟨b, f, q, h1, h2⟩ := h
        cases h2
        obtain ⟨us, h3, h4⟩ := ih _ _ h1
        exact ⟨(.bnot, v) :: us, by rw [h0, h3]; rfl, .bnot h4⟩
      · obtain ⟨us, h3, h4⟩ := ih _ _ h
        exact ⟨us, h3, .opnd h4⟩
    | opnd =>
      rw [phrase.eq_def] at h
      dsimp only at h
      split at h
      · rename_i u0 _
        simp only [Option.bind_eq_bind, Option.bind_eq_some_iff, Prod.exists] at h
        obtain ⟨q1, h1, xs, q2, h2, q3, h3, b, f, q4, h4, h5⟩ := h
        cases h5
        obtain ⟨v, rfl⟩ := eat_sound h1
        obtain ⟨w, h3⟩ := eat_sound h3
        obtain ⟨ps, rfl, hp⟩ := idsOf_sound _ h2
        obtain ⟨us, rfl, h6⟩ := ih _ _ h4
        refine ⟨(.fun_, u0) :: (.paropen, v) :: (ps ++ (.parclose, w) :: us), ?_, .lam hp h6⟩
        rw [h3]
        simp
      · cases h
        exact ⟨[_], rfl, .nil⟩
      · cases h
        exact ⟨[_], rfl, .num⟩
      · cases h
        exact ⟨[_], rfl, .str⟩
      · rename_i u0 _
        simp only [Option.bind_eq_bind, Option.bind_eq_some_iff, Prod.exists] at h
        obtain ⟨b, f, q, h1, q', h2, h3⟩ := h
        cases h3
        obtain ⟨w, rfl⟩ := eat_sound h2
        obtain ⟨us, rfl, h6⟩ := ih _ _ h1
        exact ⟨(.paropen, u0) :: (us ++ [(TT.parclose, w)]), by simp, .par h6⟩
      · cases h
        exact ⟨[_, _], rfl, .signed (.inl rfl)⟩
      · cases h
        exact ⟨[_, _], rfl, .signed (.inr rfl)⟩
      · rename_i q hq
        simp only [Option.bind_eq_bind, Option.bind_eq_some_iff, Prod.exists] at h
        obtain ⟨b, f, q', h1, h2⟩ := h
        cases h2
        obtain ⟨us, rfl, h6⟩ := ih _ _ h1
        refine ⟨(.addsub, [43]) :: us, rfl, .plus h6 ?_⟩
        rintro v hv
        cases us with
        | nil => cases hv
        | cons u us => cases hv; exact hq _ _ rfl
      · rename_i q hq
        simp only [Option.bind_eq_bind, Option.bind_eq_some_iff, Prod.exists] at h
        obtain ⟨b, f, q', h1, h2⟩ := h
        cases h2
        obtain ⟨us, rfl, h6⟩ := ih _ _ h1
        refine ⟨(.addsub, [45]) :: us, rfl, .minus h6 ?_⟩
        rintro v hv
        cases us with
        | nil => cases hv
        | cons u us => cases hv; exact hq _ _ rfl
      · simp only [Option.bind_eq_bind, Option.bind_eq_some_iff, Prod.exists] at h
        obtain ⟨b, f, q, h1, h2⟩ := h
        cases h2
        obtain ⟨us, h3, h4⟩ := ih _ _ h1
        exact ⟨us, h3, .ref h4⟩
    | ref =>
      rw [phrase.eq_def] at h
      dsimp only at h
      split at h
      · rename_i x0 _
        obtain ⟨us, h3, h4⟩ := ih _ _ h
        exact ⟨(.id, x0) :: us, by rw [h3]; rfl, h4 [_] .id⟩
      · cases h
    | refR x =>
      rw [phrase.eq_def] at h
      dsimp only at h
      split at h
      · rename_i u0 s0 _
        obtain ⟨us, rfl, h4⟩ := ih _ _ h
        refine ⟨(.dot, u0) :: (.id, s0) :: us, rfl, fun ws hw => ?_⟩
        have := h4 _ (.field (v := u0) (s := s0) hw)
        simpa using this
      · rename_i u0 _
        simp only [Option.bind_eq_bind, Option.bind_eq_some_iff, Prod.exists] at h
        obtain ⟨b, f, q, h1, q', h2, h3⟩ := h
        obtain ⟨w, rfl⟩ := eat_sound h2
        obtain ⟨us, rfl, h6⟩ := ih _ _ h1
        obtain ⟨vs, rfl, h7⟩ := ih _ _ h3
        refine ⟨(.idxopen, u0) :: (us ++ (.idxclose, w) :: vs), by simp, fun ws hw => ?_⟩
        have := h7 _ (.index (v := u0) (w := w) hw h6)
        simpa using this
      · rename_i u0 s0 _
        obtain ⟨us, rfl, h4⟩ := ih _ _ h
        refine ⟨(.paropen, u0) :: (.parclose, s0) :: us, rfl, fun ws hw => ?_⟩
        have := h4 _ (.call0 (v := u0) (w := s0) hw)
        simpa using this
      · rename_i u0 _ _
        simp only [Option.bind_eq_bind, Option.bind_eq_some_iff, Prod.exists] at h
        obtain ⟨b, f, q, h1, q', h2, h3⟩ := h
        obtain ⟨w, rfl⟩ := eat_sound h2
        obtain ⟨us, rfl, h6⟩ := ih _ _ h1
        obtain ⟨vs, rfl, h7⟩ := ih _ _ h3
        refine ⟨(.paropen, u0) :: (us ++ (.parclose, w) :: vs), by simp, fun ws hw => ?_⟩
        have := h7 _ (.call (v := u0) (w := w) hw h6)
        simpa using this
      · cases h
        exact ⟨[], rfl, fun ws hw => by rwa [List.append_nil]⟩
    | args =>
      rw [phrase] at h
      simp only [Option.bind_eq_bind, Option.bind_eq_some_iff, Prod.exists] at h
      obtain ⟨b, f, q, h1, h2⟩ := h
      obtain ⟨us, rfl, h4⟩ := ih _ _ h1
      obtain ⟨vs, rfl, h6⟩ := ih _ _ h2
      exact ⟨us ++ vs, by simp, h6 us (.arg1 h4)⟩
    | argsR x =>
      rw [phrase] at h
      split at h
      · rename_i h0
        obtain ⟨v, h0⟩ := next_sound h0
        simp only [Option.bind_eq_bind, Option.bind_eq_some_iff, Prod.exists] at h
        obtain ⟨b, f, q, h1, h2⟩ := h
        obtain ⟨us, h3, h4⟩ := ih _ _ h1
        obtain ⟨vs, rfl, h6⟩ := ih _ _ h2
        refine ⟨(.listsep, v) :: (us ++ vs), by rw [h0, h3]; simp, fun ws hw => ?_⟩
        have := h6 _ (.arg (v := v) hw h4)
        simpa using this
      · cases h
        exact ⟨[], rfl, fun ws hw => by rwa [List.append_nil]⟩
    | simple =>
      rw [phrase] at h
      split at h
      · rename_i h0
        obtain ⟨v, h0⟩ := next_sound h0
        split at h
        · cases h
          exact ⟨[(.return_, v)], h0, .ret0⟩
        · simp only [Option.bind_eq_bind, Option.bind_eq_some_iff, Prod.exists] at h
          obtain ⟨b, f, q, h1, h2⟩ := h
          cases h2
          obtain ⟨us, h3, h4⟩ := ih _ _ h1
          exact ⟨(.return_, v) :: us, by rw [h0, h3]; rfl, .ret h4⟩
      · simp only [Option.bind_eq_bind, Option.bind_eq_some_iff, Prod.exists] at h
        obtain ⟨b, f, q, h1, h2⟩ := h
        obtain ⟨us, h3, h4⟩ := ih _ _ h1
        split at h2
        · rename_i h0
          obtain ⟨v, h0⟩ := next_sound h0
          split at h2
          · cases h2
          · rename_i hc
            simp only [Option.bind_eq_some_iff, Prod.exists] at h2
            obtain ⟨c, f', q', h5, h6⟩ := h2
            cases h6
            obtain ⟨vs, h7, h8⟩ := ih _ _ h5
            refine ⟨us ++ (.assign, v) :: vs, by rw [h3, h0, h7]; simp, .assign h4 ?_ h8⟩
            rintro f a rfl
            exact hc rfl
        · split at h2
          · rename_i hc
            cases h2
            obtain ⟨f, as, rfl⟩ := isCall_sound hc
            exact ⟨us, h3, .run h4⟩
          · cases h2
    | stat =>
      rw [phrase.eq_def] at h
      dsimp only at h
      split at h
      · rename_i u0 x0 w0 _
        simp only [Option.bind_eq_bind, Option.bind_eq_some_iff, Prod.exists] at h
        obtain ⟨b, f, q, h1, h2⟩ := h
        cases h2
        obtain ⟨us, rfl, h4⟩ := ih _ _ h1
        exact ⟨(.var, u0) :: (.id, x0) :: (.assign, w0) :: us, rfl, .init h4⟩
      · cases h
        exact ⟨[_, _], rfl, .decl⟩
      · rename_i u0 f0 _
        simp only [Option.bind_eq_bind, Option.bind_eq_some_iff, Prod.exists] at h
        obtain ⟨q1, h1, xs, q2, h2, q3, h3, h4⟩ := h
        obtain ⟨v, rfl⟩ := eat_sound h1
        obtain ⟨w, h3⟩ := eat_sound h3
        obtain ⟨ps, rfl, hp⟩ := idsOf_sound _ h2
        split at h4
        · rename_i h0
          obtain ⟨d, h0⟩ := next_sound h0
          simp only [Option.bind_eq_some_iff, Prod.exists] at h4
          obtain ⟨b, f, q4, h4, h5⟩ := h4
          cases h5
          obtain ⟨us, h6, h7⟩ := ih _ _ h4
          refine ⟨(.fun_, u0) :: (.id, f0) :: (.paropen, v) :: (ps ++ (.parclose, w) :: (.string, d) :: us), ?_, .funcDoc hp h7⟩
          rw [h3, h0, h6]
          simp
        · simp only [Option.bind_eq_some_iff, Prod.exists] at h4
          obtain ⟨b, f, q4, h4, h5⟩ := h4
          cases h5
          obtain ⟨us, rfl, h7⟩ := ih _ _ h4
          refine ⟨(.fun_, u0) :: (.id, f0) :: (.paropen, v) :: (ps ++ (.parclose, w) :: us), ?_, .func hp h7⟩
          rw [h3]
          simp
      · rename_i u0 _
        simp only [Option.bind_eq_bind, Option.bind_eq_some_iff, Prod.exists] at h
        obtain ⟨q1, h1, c, f, q2, h2, q3, h3, b, f', q4, h4, h5⟩ := h
        obtain ⟨v, rfl⟩ := eat_sound h1
        obtain ⟨w, rfl⟩ := eat_sound h3
        obtain ⟨cs, rfl, hc⟩ := ih _ _ h2
        obtain ⟨us, rfl, ha⟩ := ih _ _ h4
        split at h5
        · rename_i h0
          obtain ⟨x, h0⟩ := next_sound h0
          split at h5
          · cases h5
          · rename_i hb
            simp only [Bool.or_eq_true, not_or, Bool.not_eq_true] at hb
            simp only [Option.bind_eq_some_iff, Prod.exists] at h5
            obtain ⟨d, f'', q5, h6, h7⟩ := h5
            cases h7
            obtain ⟨vs, h8, h9⟩ := ih _ _ h6
            refine ⟨(.if_, u0) :: (.paropen, v) :: (cs ++ (.parclose, w) :: (us ++ (.else_, x) :: vs)), ?_, .ite hc ha hb.1 hb.2 h9⟩
            rw [h0, h8]
            simp
        · cases h5
          exact ⟨(.if_, u0) :: (.paropen, v) :: (cs ++ (.parclose, w) :: us), by simp, .ifs hc ha⟩
      · rename_i u0 _
        simp only [Option.bind_eq_bind, Option.bind_eq_some_iff, Prod.exists] at h
        obtain ⟨q1, h1, c, f, q2, h2, q3, h3, b, f', q4, h4, h5⟩ := h
        cases h5
        obtain ⟨v, rfl⟩ := eat_sound h1
        obtain ⟨w, rfl⟩ := eat_sound h3
        obtain ⟨cs, rfl, hc⟩ := ih _ _ h2
        obtain ⟨us, rfl, ha⟩ := ih _ _ h4
        exact ⟨(.while_, u0) :: (.paropen, v) :: (cs ++ (.parclose, w) :: us), by simp, .while_ hc ha⟩
      · rename_i u0 _
        simp only [Option.bind_eq_bind, Option.bind_eq_some_iff, Prod.exists] at h
        obtain ⟨q1, h1, i, f1, q2, h2, q3, h3, c, f2, q4, h4, q5, h5, k, f3, q6, h6, q7, h7, b, f4, q8, h8, h9⟩ := h
        split at h9
        · cases h9
        · rename_i hb
          simp only [Bool.or_eq_true, not_or, Bool.not_eq_true] at hb
          cases h9
          obtain ⟨v, rfl⟩ := eat_sound h1
          obtain ⟨w, rfl⟩ := eat_sound h3
          obtain ⟨x, rfl⟩ := eat_sound h5
          obtain ⟨y, rfl⟩ := eat_sound h7
          obtain ⟨is, rfl, hi⟩ := ih _ _ h2
          obtain ⟨cs, rfl, hc⟩ := ih _ _ h4
          obtain ⟨us, rfl, hk⟩ := ih _ _ h6
          obtain ⟨vs, rfl, ha⟩ := ih _ _ h8
          exact ⟨(.for_, u0) :: (.paropen, v) :: (is ++ (.listsep, w) :: (cs ++ (.listsep, x) :: (us ++ (.parclose, y) :: vs))), by simp, .for_ hi hb.1 hc hk hb.2 ha⟩
      · obtain ⟨us, h3, h4⟩ := ih _ _ h
        exact ⟨us, h3, .simple h4⟩
    | sub =>
      rw [phrase] at h
      split at h
      · simp only [Option.bind_eq_bind, Option.bind_eq_some_iff, Prod.exists] at h
        obtain ⟨b, f, q, h1, h2⟩ := h
        cases h2
        obtain ⟨us, h3, h4⟩ := ih _ _ h1
        exact ⟨us, h3, .subBlk h4⟩
      · split at h
        · cases h
          exact ⟨[], rfl, .sub0⟩
        · obtain ⟨us, h3, h4⟩ := ih _ _ h
          exact ⟨us, h3, .sub h4⟩
    | stats =>
      rw [phrase] at h
      split at h
      · cases h
        exact ⟨[], rfl, .stats0⟩
      · simp only [Option.bind_eq_bind, Option.bind_eq_some_iff, Prod.exists] at h
        obtain ⟨b, f, q, h1, h2⟩ := h
        obtain ⟨us, h3, h4⟩ := ih _ _ h1
        split at h2
        · cases h2
          refine ⟨us, h3, ?_⟩
          have := Syn.stats h4 .stats0 (fun _ => rfl)
          rwa [List.append_nil] at this
        · rename_i hb
          simp only [Option.bind_eq_some_iff, Prod.exists] at h2
          obtain ⟨c, f', q', h5, h6⟩ := h2
          cases h6
          obtain ⟨vs, h7, h8⟩ := ih _ _ h5
          exact ⟨us ++ vs, by rw [h3, h7, List.append_assoc], .stats h4 h8 (fun hb' => absurd hb' hb)⟩
    | blk =>
      rw [phrase] at h
      simp only [Option.bind_eq_bind, Option.bind_eq_some_iff, Prod.exists] at h
      obtain ⟨q, h1, b, f, q', h2, q'', h3, h4⟩ := h
      cases h4
      obtain ⟨v, rfl⟩ := eat_sound h1
      obtain ⟨w, rfl⟩ := eat_sound h3
      obtain ⟨us, rfl, h5⟩ := ih _ _ h2
      exact ⟨(.blockopen, v) :: (us ++ [(TT.blockclose, w)]), by simp, .blk h5⟩

/-- The statements of a program. -/
def astOf (ts : List T2) : Option Ast :=
  match phrase (ts.length * 40 + 100) .stats ts with
  | some (a, _, []) => some a
  | _ => none

theorem astOf_sound {ts : List T2} {a : Ast} (h : astOf ts = some a) : Syn .stats ts a := by
  unfold astOf at h
  split at h
  · rename_i b e h1
    cases h
    obtain ⟨us, h2, h3⟩ := phrase_sound _ _ _ h1
    rw [List.append_nil] at h2
    rw [h2]
    exact h3
  · cases h

end Buzz.Lang
