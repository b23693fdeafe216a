import Verif.Const.Props

/-!
# Switch statements built from Python

`switch_(target).case_(cond, *stmts)` (`kratos/stmts.py:57-80`) on top of `SwitchStmt::add_switch_case`
(`src/stmt.cc:548-573`) and `StmtBlock::add_stmt` (`src/stmt.cc:420-447`).

A condition is a Python integer or `None` (the default).  A statement is a name for a statement object; two equal
names are the same object.  `body_` is an association list in place of a `std::map` by address.  The width of the
target is at most 63 bits: larger numbers take another route (`python/kratos_expr.cc:543-560`).
Not modelled: constants and enum members as conditions, debug information, the parents of the statements, statements
whose assignment type is fixed (a case has no type that could refuse them).
-/

namespace Kratos.CaseCalls
open Kratos.Eval (U64)

variable {S : Type} [DecidableEq S]

/-- An argument of `case_` after the condition: a statement, a block with its statements, or something that is not a
statement. -/
inductive Arg (S : Type) where
  | one (s : S)
  | block (l : List S)
  | bad
  deriving DecidableEq

/-- `SwitchStmt::body_` (`src/stmt.hh:234`): the value of the condition (`none`: the default) and the statements. -/
abbrev Body (S : Type) := List (Option U64 × List S)

/-- The search of `add_switch_case` by value (`src/stmt.cc:552-557`). -/
def look : Body S → Option U64 → Option (List S)
  | [], _ => none
  | x :: b, k => if x.1 = k then some x.2 else look b k

/-- The case found has new statements, or a new case is added (`src/stmt.cc:558-562`). -/
def put : Body S → Option U64 → List S → Body S
  | [], k, l => [(k, l)]
  | x :: b, k, l => if x.1 = k then (x.1, l) :: b else x :: put b k l

/-- `StmtBlock::add_stmt` (`src/stmt.cc:420-447`) for each statement in turn. -/
def addAll : List S → List S → List S × Res Unit
  | old, [] => (old, .ok ())
  | old, s :: l => if s ∈ old then (old, .throw .stmt) else addAll (old ++ [s]) l

/-- `SwitchStmt::add_switch_case` (`src/stmt.cc:548-573`): the case is there even if a statement is refused. -/
def addCase (b : Body S) (k : Option U64) (l : List S) : Body S × Res Unit :=
  let r := addAll ((look b k).getD []) l
  (put b k r.1, r.2)

/-- The loop of `case_` (`kratos/stmts.py:69-72`): what is not a statement has no method `stmt`. -/
def addArgs (k : Option U64) : Body S → List (Arg S) → Body S × Res Unit
  | b, [] => (b, .ok ())
  | b, .bad :: _ => (b, .throw .invalidArg)
  | b, .one s :: as =>
    match addCase b k [s] with
    | (b', .ok _) => addArgs k b' as
    | r => r
  | b, .block l :: as =>
    match addCase b k l with
    | (b', .ok _) => addArgs k b' as
    | r => r

/-- The condition as a constant of the target's shape (`kratos/stmts.py:66-67`, `kratos/util.py:189-191`,
`python/kratos_expr.cc:747`; outside of 64 signed bits `:543-550`). -/
def keyOf (w : Nat) (sgn : Bool) : Option Int → Res (Option U64)
  | none => .ok none
  | some z =>
    if -(2 ^ 63) ≤ z ∧ z < 2 ^ 63 then
      (Const.create (BitVec.ofInt 64 z) w sgn).bind fun c => .ok (some c.value)
    else .throw .invalidArg

/-- `SwitchStmt.case_` (`kratos/stmts.py:65-76`): the switch afterwards, and the outcome. -/
def case_ (w : Nat) (sgn : Bool) (b : Body S) (cond : Option Int) (args : List (Arg S)) : Body S × Res Unit :=
  match keyOf w sgn cond with
  | .ok k =>
    match addArgs k b args with
    | (b', .ok _) => if args = [] then (b', .throw .user) else (b', .ok ())
    | r => r
  | .throw e => (b, .throw e)
  | .ub => (b, .ub)

/-- `switch_(target)` and calls of `case_` that were all accepted. -/
def build (w : Nat) (sgn : Bool) : Body S → List (Option Int × List (Arg S)) → Option (Body S)
  | b, [] => some b
  | b, c :: cs =>
    match case_ w sgn b c.1 c.2 with
    | (b', .ok _) => build w sgn b' cs
    | _ => none

/-- `stmt_code(SwitchStmt *)` refuses a case without statements (`src/codegen.cc:907-910`). -/
def printable (b : Body S) : Bool := b.all fun x => x.1 = none || x.2 ≠ []

/-! ## Specification -/

/-- The statements of an argument. -/
def Arg.all : Arg S → List S
  | .one s => [s]
  | .block l => l
  | .bad => []

/-- The statements given for a condition, in the order of the calls. -/
def meant (calls : List (Option Int × List (Arg S))) (cond : Option Int) : List S :=
  (calls.filter fun c => c.1 = cond).flatMap fun c => c.2.flatMap Arg.all

/-- The cases of a Verilog `case` on a `w`-bit target whose label has the bits of the number `z`. -/
def Hit (b : Body S) (w : Nat) (z : Int) (l : List S) : Prop :=
  ∃ v, (some v, l) ∈ b ∧ v.setWidth w = BitVec.ofInt w z

/-- What a user expects: a call that raises changes nothing. -/
def AtomicClaim : Prop :=
  ∀ (w : Nat) (sgn : Bool) (b : Body Nat) (cond : Option Int) (args : List (Arg Nat)), 1 ≤ w → w ≤ 63 →
    (case_ w sgn b cond args).2 ≠ .ok () → (case_ w sgn b cond args).1 = b

/-- What a user expects: a switch whose calls were accepted can be printed. -/
def PrintClaim : Prop :=
  ∀ (w : Nat) (sgn : Bool) (calls : List (Option Int × List (Arg Nat))) (b : Body Nat), 1 ≤ w → w ≤ 63 →
    build w sgn [] calls = some b → printable b = true

/-! ## Theorems -/

omit [DecidableEq S] in
theorem look_put (b : Body S) (k k' : Option U64) (l : List S) :
    look (put b k l) k' = if k' = k then some l else look b k' := by
  induction b with
  | nil =>
    simp only [put, look]
    by_cases h : k' = k
    · rw [if_pos h, if_pos h.symm]
    · rw [if_neg h, if_neg (Ne.symm h)]
  | cons x b ih =>
    simp only [put]
    by_cases hx : x.1 = k
    · rw [if_pos hx]
      simp only [look]
      by_cases h : k' = k
      · rw [if_pos h, if_pos (hx.trans h.symm)]
      · rw [if_neg h, if_neg (fun e => h (e.symm.trans hx)), if_neg (fun e => h (e.symm.trans hx))]
    · rw [if_neg hx]
      simp only [look, ih]
      by_cases h : x.1 = k'
      · rw [if_pos h, if_pos h, if_neg (fun e => hx (h.trans e))]
      · rw [if_neg h, if_neg h]

omit [DecidableEq S] in
theorem mem_keys_put {b : Body S} {k k' : Option U64} {l : List S} (h : k' ∈ (put b k l).map (·.1)) :
    k' = k ∨ k' ∈ b.map (·.1) := by
  induction b with
  | nil => exact .inl (by simpa [put] using h)
  | cons x b ih =>
    simp only [put] at h
    split at h
    · exact .inr h
    · rw [List.map_cons, List.mem_cons] at h
      rcases h with h | h
      · exact .inr (by rw [h]; exact List.mem_cons_self)
      · rcases ih h with h | h
        · exact .inl h
        · exact .inr (List.mem_cons_of_mem _ h)

omit [DecidableEq S] in
theorem nodup_put {b : Body S} (k : Option U64) (l : List S) (h : (b.map (·.1)).Nodup) :
    ((put b k l).map (·.1)).Nodup := by
  induction b with
  | nil => simp [put]
  | cons x b ih =>
    rw [List.map_cons, List.nodup_cons] at h
    simp only [put]
    split
    · exact List.nodup_cons.2 h
    · rename_i hx
      rw [List.map_cons, List.nodup_cons]
      refine ⟨fun hm => ?_, ih h.2⟩
      rcases mem_keys_put hm with e | e
      · exact hx e
      · exact h.1 e

omit [DecidableEq S] in
theorem mem_iff_look {b : Body S} (h : (b.map (·.1)).Nodup) (k : Option U64) (l : List S) :
    (k, l) ∈ b ↔ look b k = some l := by
  induction b with
  | nil => simp [look]
  | cons x b ih =>
    rw [List.map_cons, List.nodup_cons] at h
    simp only [look, List.mem_cons, ih h.2]
    by_cases hx : x.1 = k
    · rw [if_pos hx]
      have hn : look b k ≠ some l := by
        intro hl
        exact h.1 (hx ▸ List.mem_map_of_mem ((ih h.2).2 hl))
      constructor
      · rintro (e | e)
        · rw [← e]
        · exact absurd e hn
      · intro e
        cases x
        cases e
        exact .inl (by rw [← hx])
    · rw [if_neg hx]
      constructor
      · rintro (e | e)
        · exact absurd (by rw [← e]) hx
        · exact e
      · exact .inr

theorem addAll_spec : ∀ (l old : List S),
    ((addAll old l).2 = .ok () ↔ l.Nodup ∧ ∀ s ∈ l, s ∉ old) ∧ ((addAll old l).2 = .ok () → (addAll old l).1 = old ++ l)
  | [], old => by simp [addAll]
  | s :: l, old => by
    simp only [addAll]
    by_cases hs : s ∈ old
    · rw [if_pos hs]
      constructor
      · constructor
        · intro h; cases h
        · intro h; exact absurd hs (h.2 s List.mem_cons_self)
      · intro h; cases h
    · rw [if_neg hs]
      obtain ⟨h1, h2⟩ := addAll_spec l (old ++ [s])
      refine ⟨h1.trans ?_, fun h => by rw [h2 h, List.append_assoc]; rfl⟩
      rw [List.nodup_cons]
      constructor
      · rintro ⟨hn, hd⟩
        refine ⟨⟨fun hm => hd s hm (by simp), hn⟩, ?_⟩
        intro x hx
        rcases List.mem_cons.1 hx with rfl | hx
        · exact hs
        · exact fun ho => hd x hx (List.mem_append_left _ ho)
      · rintro ⟨⟨hm, hn⟩, hd⟩
        refine ⟨hn, fun x hx ho => ?_⟩
        rcases List.mem_append.1 ho with ho | ho
        · exact hd x (List.mem_cons_of_mem _ hx) ho
        · rw [List.mem_singleton] at ho
          exact hm (ho ▸ hx)

theorem addCase_ok {b b' : Body S} {k : Option U64} {l : List S} (h : addCase b k l = (b', .ok ())) :
    b' = put b k ((look b k).getD [] ++ l) := by
  simp only [addCase, Prod.mk.injEq] at h
  rw [← h.1, (addAll_spec l _).2 h.2]

/-- The arguments of an accepted call. -/
theorem addArgs_ok {k : Option U64} : ∀ (as : List (Arg S)) (b b' : Body S), addArgs k b as = (b', .ok ()) →
    Arg.bad ∉ as ∧ ((b.map (·.1)).Nodup → (b'.map (·.1)).Nodup) ∧
    ∀ k', look b' k' = if k' = k ∧ as ≠ [] then some ((look b k).getD [] ++ as.flatMap Arg.all) else look b k'
  | [], b, b', h => by
    simp only [addArgs, Prod.mk.injEq] at h
    cases h.1
    simp
  | a :: as, b, b', h => by
    have key : ∀ l : List S, a.all = l → a ≠ .bad → (match addCase b k l with
        | (b', .ok _) => addArgs k b' as
        | r => r) = (b', .ok ()) →
        Arg.bad ∉ a :: as ∧ ((b.map (·.1)).Nodup → (b'.map (·.1)).Nodup) ∧
        ∀ k', look b' k' = if k' = k ∧ a :: as ≠ [] then some ((look b k).getD [] ++ (a :: as).flatMap Arg.all)
          else look b k' := by
      intro l hl hb h
      split at h
      · rename_i b1 u hc
        have hb1 := addCase_ok hc
        obtain ⟨h1, h2, h3⟩ := addArgs_ok as b1 b' h
        refine ⟨?_, ?_, ?_⟩
        · rw [List.mem_cons, not_or]
          exact ⟨Ne.symm hb, h1⟩
        · intro hn
          exact h2 (hb1 ▸ nodup_put _ _ hn)
        · intro k'
          rw [h3, hb1, look_put, look_put, if_pos rfl, List.flatMap_cons, hl]
          by_cases hk : k' = k
          · by_cases he : as = []
            · subst he
              simp [hk]
            · simp [hk, he]
          · simp [hk]
      · rename_i r hr
        rw [h] at hr
        exact absurd rfl (hr b' ())
    cases a with
    | one s => exact key [s] rfl nofun h
    | block l => exact key l rfl nofun h
    | bad => simp [addArgs] at h

theorem toInt_of64 {z : Int} (h1 : -(2 ^ 63) ≤ z) (h2 : z < 2 ^ 63) : (BitVec.ofInt 64 z).toInt = z := by
  rw [BitVec.toInt_ofInt]
  unfold Int.bmod
  simp only [Nat.reducePow, Int.cast_ofNat_Int]
  split <;> omega

/-- **C137**: a condition is accepted exactly when it is a number of the target's shape. -/
theorem keyOf_ok {w : Nat} (h1 : 1 ≤ w) (h2 : w ≤ 63) {sgn : Bool} {z : Int} {k : Option U64} :
    keyOf w sgn (some z) = .ok k ↔ Const.Representable sgn w z ∧ k = some (BitVec.ofInt 64 z) := by
  have hp : (2 : Int) ^ w ≤ 2 ^ 63 := by
    exact_mod_cast Nat.pow_le_pow_right (show 0 < 2 by decide) h2
  have hp' : (2 : Int) ^ (w - 1) ≤ 2 ^ 63 := by
    exact_mod_cast Nat.pow_le_pow_right (show 0 < 2 by decide) (show w - 1 ≤ 63 by omega)
  have hrange : Const.Representable sgn w z → -(2 ^ 63) ≤ z ∧ z < 2 ^ 63 := by
    unfold Const.Representable
    cases sgn <;> simp only [Bool.false_eq_true, if_false, if_true] <;> intro h <;> omega
  simp only [keyOf]
  by_cases hz : -(2 ^ 63) ≤ z ∧ z < 2 ^ 63
  · rw [if_pos hz]
    have hn : Const.Representable sgn w (Const.number sgn (BitVec.ofInt 64 z)) ↔ Const.Representable sgn w z := by
      cases sgn with
      | true => simp only [Const.number, if_true, toInt_of64 hz.1 hz.2]
      | false =>
        simp only [Const.Representable, Const.number, Bool.false_eq_true, if_false, BitVec.toNat_ofInt]
        by_cases h0 : 0 ≤ z
        · have : (((z % ((2 ^ 64 : Nat) : Int)).toNat : Nat) : Int) = z := by omega
          rw [this]
        · constructor
          · intro h
            have : (((z % ((2 ^ 64 : Nat) : Int)).toNat : Nat) : Int) = z + 2 ^ 64 := by omega
            rw [this] at h
            omega
          · intro h; omega
    obtain ⟨ha, hb⟩ := Const.const_create_exact h1 (by omega : w ≤ 64) sgn (BitVec.ofInt 64 z)
    by_cases hr : Const.Representable sgn w z
    · rw [ha (hn.2 hr), Res.ok_bind]
      simp only [Res.ok.injEq, hr, true_and]
      exact eq_comm
    · rw [hb fun h => hr (hn.1 h)]
      constructor
      · intro h; cases h
      · intro h; exact absurd h.1 hr
  · rw [if_neg hz]
    constructor
    · intro h; cases h
    · intro h; exact absurd (hrange h.1) hz

theorem keyOf_inj {w : Nat} (h1 : 1 ≤ w) (h2 : w ≤ 63) {sgn : Bool} {c c' : Option Int} {k : Option U64}
    (h : keyOf w sgn c = .ok k) (h' : keyOf w sgn c' = .ok k) : c = c' := by
  have range : ∀ {z : Int}, Const.Representable sgn w z → -(2 ^ 63) ≤ z ∧ z < 2 ^ 63 := by
    intro z
    have hp : (2 : Int) ^ w ≤ 2 ^ 63 := by
      exact_mod_cast Nat.pow_le_pow_right (show 0 < 2 by decide) h2
    have hp' : (2 : Int) ^ (w - 1) ≤ 2 ^ 63 := by
      exact_mod_cast Nat.pow_le_pow_right (show 0 < 2 by decide) (show w - 1 ≤ 63 by omega)
    unfold Const.Representable
    cases sgn <;> simp only [Bool.false_eq_true, if_false, if_true] <;> intro h <;> omega
  cases c with
  | none =>
    cases c' with
    | none => rfl
    | some z' =>
      obtain ⟨_, e⟩ := (keyOf_ok h1 h2).1 h'
      cases h
      cases e
  | some z =>
    obtain ⟨hr, e⟩ := (keyOf_ok h1 h2).1 h
    cases c' with
    | none => cases h'; cases e
    | some z' =>
      obtain ⟨hr', e'⟩ := (keyOf_ok h1 h2).1 h'
      rw [e] at e'
      have e2 := congrArg BitVec.toInt (Option.some.inj e')
      rw [toInt_of64 (range hr).1 (range hr).2, toInt_of64 (range hr').1 (range hr').2] at e2
      rw [e2]

/-- An accepted call. -/
theorem case_ok {w : Nat} {sgn : Bool} {b b' : Body S} {cond : Option Int} {args : List (Arg S)}
    (h : case_ w sgn b cond args = (b', .ok ())) :
    ∃ k, keyOf w sgn cond = .ok k ∧ addArgs k b args = (b', .ok ()) ∧ args ≠ [] := by
  simp only [case_] at h
  split at h
  · rename_i k hk
    refine ⟨k, hk, ?_⟩
    split at h
    · rename_i b1 u hb
      split at h
      · cases h
      · rename_i hne
        cases h
        exact ⟨hb, hne⟩
    · rename_i r hr
      rw [h] at hr
      exact absurd rfl (hr b' ())
  · cases h
  · cases h

/-- The switch after accepted calls, case by case. -/
theorem build_look {w : Nat} (h1 : 1 ≤ w) (h2 : w ≤ 63) {sgn : Bool} :
    ∀ (calls : List (Option Int × List (Arg S))) (b b' : Body S), build w sgn b calls = some b' →
    ((b.map (·.1)).Nodup → (b'.map (·.1)).Nodup) ∧
    (∀ c ∈ calls, c.2 ≠ [] ∧ Arg.bad ∉ c.2 ∧ ∃ k, keyOf w sgn c.1 = .ok k) ∧
    (∀ k, (∀ c ∈ calls, keyOf w sgn c.1 ≠ .ok k) → look b' k = look b k) ∧
    ∀ cond k, keyOf w sgn cond = .ok k → (∃ c ∈ calls, c.1 = cond) →
      look b' k = some ((look b k).getD [] ++ meant calls cond)
  | [], b, b', h => by
    cases h
    exact ⟨id, nofun, fun _ _ => rfl, by rintro _ _ _ ⟨c, hc, _⟩; cases hc⟩
  | c :: cs, b, b', h => by
    simp only [build] at h
    split at h
    · rename_i b1 u hc
      obtain ⟨k0, hk0, ha, hne⟩ := case_ok hc
      obtain ⟨g1, g2, g3⟩ := addArgs_ok c.2 b b1 ha
      obtain ⟨i1, i2, i3, i4⟩ := build_look h1 h2 cs b1 b' h
      refine ⟨fun hn => i1 (g2 hn), ?_, ?_, ?_⟩
      · intro x hx
        rcases List.mem_cons.1 hx with rfl | hx
        · exact ⟨hne, g1, k0, hk0⟩
        · exact i2 x hx
      · intro k hk
        rw [i3 k fun x hx => hk x (List.mem_cons_of_mem _ hx), g3, if_neg]
        rintro ⟨rfl, _⟩
        exact hk c List.mem_cons_self hk0
      · intro cond k hk hex
        by_cases hc1 : c.1 = cond
        · have e : k = k0 := by
            rw [hc1, hk] at hk0
            exact Res.ok.inj hk0
          subst e
          have hm : meant (c :: cs) cond = c.2.flatMap Arg.all ++ meant cs cond := by
            simp [meant, hc1]
          by_cases hin : ∃ x ∈ cs, x.1 = cond
          · rw [i4 cond k hk hin, g3, if_pos ⟨rfl, hne⟩, hm]
            simp
          · have hz : meant cs cond = [] := by
              unfold meant
              rw [List.filter_eq_nil_iff.2]
              · rfl
              · intro x hx he
                exact hin ⟨x, hx, by simpa using he⟩
            rw [i3 k, g3, if_pos ⟨rfl, hne⟩, hm, hz, List.append_nil]
            intro x hx he
            exact hin ⟨x, hx, keyOf_inj h1 h2 he hk⟩
        · have hm : meant (c :: cs) cond = meant cs cond := by
            simp [meant, hc1]
          have hin : ∃ x ∈ cs, x.1 = cond := by
            obtain ⟨x, hx, he⟩ := hex
            rcases List.mem_cons.1 hx with rfl | hx
            · exact absurd he hc1
            · exact ⟨x, hx, he⟩
          rw [i4 cond k hk hin, g3, if_neg, hm]
          rintro ⟨rfl, _⟩
          exact hc1 (keyOf_inj h1 h2 hk0 hk)
    · cases h

theorem setWidth_ofInt {w : Nat} (h : w ≤ 64) (z : Int) : (BitVec.ofInt 64 z).setWidth w = BitVec.ofInt w z := by
  apply BitVec.eq_of_toNat_eq
  rw [BitVec.toNat_setWidth, BitVec.toNat_ofInt, BitVec.toNat_ofInt]
  have hd : ((2 ^ w : Nat) : Int) ∣ ((2 ^ 64 : Nat) : Int) := Int.natCast_dvd_natCast.2 (Nat.pow_dvd_pow 2 h)
  have hw : ((2 ^ w : Nat) : Int) ≠ 0 := by
    have := Nat.two_pow_pos w
    omega
  have h64 : 0 ≤ z % ((2 ^ 64 : Nat) : Int) := Int.emod_nonneg _ (by decide)
  have hzw : 0 ≤ z % ((2 ^ w : Nat) : Int) := Int.emod_nonneg _ hw
  apply Int.ofNat_inj.1
  rw [Int.natCast_emod, Int.toNat_of_nonneg h64, Int.toNat_of_nonneg hzw, Int.emod_emod_of_dvd z hd]

theorem ofInt_inj {w : Nat} (h1 : 1 ≤ w) {sgn : Bool} {z z' : Int} (h : Const.Representable sgn w z)
    (h' : Const.Representable sgn w z') (e : BitVec.ofInt w z = BitVec.ofInt w z') : z = z' := by
  have hP : (2 : Int) ^ w = 2 * 2 ^ (w - 1) := by
    obtain ⟨n, rfl⟩ : ∃ n, w = n + 1 := ⟨w - 1, by omega⟩
    rw [Nat.add_sub_cancel, Int.pow_succ, Int.mul_comm]
  have hpos : (0 : Int) < 2 ^ w := by exact_mod_cast Nat.two_pow_pos w
  have hlt : z - z' < 2 ^ w ∧ z' - z < 2 ^ w := by
    unfold Const.Representable at h h'
    cases sgn <;> simp only [Bool.false_eq_true, if_false, if_true] at h h' <;> omega
  have e2 := congrArg BitVec.toNat e
  rw [BitVec.toNat_ofInt, BitVec.toNat_ofInt] at e2
  have hc : ((2 ^ w : Nat) : Int) = 2 ^ w := by exact_mod_cast rfl
  rw [hc] at e2
  have ha := Int.emod_nonneg z (show (2 : Int) ^ w ≠ 0 by omega)
  have hb := Int.emod_nonneg z' (show (2 : Int) ^ w ≠ 0 by omega)
  have e3 : z % 2 ^ w = z' % 2 ^ w := by omega
  have hd := Int.emod_eq_emod_iff_emod_sub_eq_zero.1 e3
  obtain ⟨q, hq⟩ := Int.dvd_of_emod_eq_zero hd
  rcases Int.lt_trichotomy q 0 with hq0 | hq0 | hq0
  · have := Int.mul_le_mul_of_nonneg_left (show q ≤ -1 by omega) (Int.le_of_lt hpos)
    omega
  · rw [hq0] at hq; omega
  · have := Int.mul_le_mul_of_nonneg_left (show 1 ≤ q by omega) (Int.le_of_lt hpos)
    omega

/-- **C137**: after accepted calls of `case_`, the emitted `case` runs for a value of the target exactly the statements
given for this value, in the order they were given, and has no label for a value that was not given; its default
holds the statements given for the default. -/
theorem case_runs {w : Nat} (h1 : 1 ≤ w) (h2 : w ≤ 63) {sgn : Bool} {calls : List (Option Int × List (Arg S))}
    {b : Body S} (h : build w sgn [] calls = some b) :
    (∀ z, Const.Representable sgn w z → ∀ l,
      (Hit b w z l ↔ (∃ c ∈ calls, c.1 = some z) ∧ l = meant calls (some z))) ∧
    ∀ l, (none, l) ∈ b ↔ (∃ c ∈ calls, c.1 = none) ∧ l = meant calls none := by
  obtain ⟨g1, g2, g3, g4⟩ := build_look h1 h2 calls [] b h
  have hn := g1 List.nodup_nil
  have key : ∀ cond k, keyOf w sgn cond = .ok k → ∀ l,
      ((k, l) ∈ b ↔ (∃ c ∈ calls, c.1 = cond) ∧ l = meant calls cond) := by
    intro cond k hk l
    rw [mem_iff_look hn]
    by_cases hex : ∃ c ∈ calls, c.1 = cond
    · rw [g4 cond k hk hex]
      simp only [look, Option.getD_none, List.nil_append, Option.some.injEq, hex, true_and]
      exact eq_comm
    · rw [g3 k fun c hc he => hex ⟨c, hc, keyOf_inj h1 h2 he hk⟩]
      simp [look, hex]
  refine ⟨fun z hz l => ?_, key none none rfl⟩
  rw [← key (some z) _ ((keyOf_ok h1 h2).2 ⟨hz, rfl⟩)]
  constructor
  · rintro ⟨v, hv, hb⟩
    have : ∃ c ∈ calls, keyOf w sgn c.1 = .ok (some v) := by
      by_cases hc : ∃ c ∈ calls, keyOf w sgn c.1 = .ok (some v)
      · exact hc
      · rw [mem_iff_look hn, g3 _ fun c hm he => hc ⟨c, hm, he⟩] at hv
        cases hv
    obtain ⟨c, hc, hk⟩ := this
    obtain ⟨cz, ca⟩ := c
    cases cz with
    | none => cases hk
    | some z' =>
      obtain ⟨hr, e⟩ := (keyOf_ok h1 h2).1 hk
      cases e
      rw [setWidth_ofInt (by omega)] at hb
      cases ofInt_inj h1 hr hz hb
      exact hv
  · intro hv
    exact ⟨_, hv, setWidth_ofInt (by omega) z⟩

theorem addArgs_iff {k : Option U64} : ∀ (as : List (Arg S)) (b : Body S),
    (∃ b', addArgs k b as = (b', .ok ())) ↔
      Arg.bad ∉ as ∧ (as.flatMap Arg.all).Nodup ∧ ∀ s ∈ as.flatMap Arg.all, s ∉ (look b k).getD []
  | [], b => by simp [addArgs]
  | a :: as, b => by
    have key : ∀ l : List S, a.all = l → a ≠ .bad →
        ((∃ b', (match addCase b k l with
          | (b', .ok _) => addArgs k b' as
          | r => r) = (b', .ok ())) ↔
        Arg.bad ∉ a :: as ∧ ((a :: as).flatMap Arg.all).Nodup ∧
          ∀ s ∈ (a :: as).flatMap Arg.all, s ∉ (look b k).getD []) := by
      intro l hl hb
      have hsp := addAll_spec l ((look b k).getD [])
      rw [List.flatMap_cons, hl, List.nodup_append]
      by_cases hok : (addCase b k l).2 = .ok ()
      · have hc : addCase b k l = ((addCase b k l).1, .ok ()) := by rw [← hok]
        have hb1 := addCase_ok hc
        rw [hc]
        simp only
        rw [addArgs_iff as, hb1, look_put, if_pos rfl]
        have hl2 := hsp.1.1 hok
        simp only [Option.getD_some, List.mem_cons, List.mem_append, not_or]
        constructor
        · rintro ⟨p1, p2, p3⟩
          refine ⟨⟨Ne.symm hb, p1⟩, ⟨hl2.1, p2, ?_⟩, ?_⟩
          · intro x hx y hy e
            exact (p3 y hy).2 (e ▸ hx)
          · rintro s (hs | hs)
            · exact hl2.2 s hs
            · exact (p3 s hs).1
        · rintro ⟨⟨_, p1⟩, ⟨_, p2, p3⟩, p4⟩
          exact ⟨p1, p2, fun s hs => ⟨p4 s (.inr hs), fun hs' => p3 s hs' s hs rfl⟩⟩
      · constructor
        · rintro ⟨b', h⟩
          split at h
          · rename_i b1 u hc
            exact absurd (by rw [hc]) hok
          · exact absurd (by rw [h]) hok
        · rintro ⟨_, ⟨p2, _⟩, p4⟩
          exact absurd (hsp.1.2 ⟨p2, fun s hs => p4 s (List.mem_append_left _ hs)⟩) hok
    cases a with
    | one s => exact key [s] rfl nofun
    | block l => exact key l rfl nofun
    | bad => simp [addArgs]

/-- **C137**: a further call is accepted exactly when its condition is a number of the target's shape or the default, it
has an argument, all its arguments are statements, and none of them is in this case already. -/
theorem case_accepted {w : Nat} (h1 : 1 ≤ w) (h2 : w ≤ 63) {sgn : Bool} {calls : List (Option Int × List (Arg S))}
    {b : Body S} (h : build w sgn [] calls = some b) (cond : Option Int) (args : List (Arg S)) :
    (case_ w sgn b cond args).2 = .ok () ↔
      (∀ z, cond = some z → Const.Representable sgn w z) ∧ args ≠ [] ∧ Arg.bad ∉ args ∧
        (args.flatMap Arg.all).Nodup ∧ ∀ s ∈ args.flatMap Arg.all, s ∉ meant calls cond := by
  obtain ⟨_, _, g3, g4⟩ := build_look h1 h2 calls [] b h
  have hlook : ∀ k, keyOf w sgn cond = .ok k → (look b k).getD [] = meant calls cond := by
    intro k hk
    by_cases hex : ∃ c ∈ calls, c.1 = cond
    · rw [g4 cond k hk hex]; rfl
    · rw [g3 k fun c hc he => hex ⟨c, hc, keyOf_inj h1 h2 he hk⟩]
      unfold meant
      rw [List.filter_eq_nil_iff.2]
      · rfl
      · intro x hx he
        exact hex ⟨x, hx, by simpa using he⟩
  have hkey : (∃ k, keyOf w sgn cond = .ok k) ↔ ∀ z, cond = some z → Const.Representable sgn w z := by
    cases cond with
    | none => exact ⟨fun _ => nofun, fun _ => ⟨none, rfl⟩⟩
    | some z =>
      constructor
      · rintro ⟨k, hk⟩ z' e
        cases e
        exact ((keyOf_ok h1 h2).1 hk).1
      · intro hz
        exact ⟨_, (keyOf_ok h1 h2).2 ⟨hz z rfl, rfl⟩⟩
  rw [← hkey]
  constructor
  · intro hc
    obtain ⟨k, hk, ha, hne⟩ := case_ok (b' := (case_ w sgn b cond args).1) (by rw [← hc])
    have := (addArgs_iff args b).1 ⟨_, ha⟩
    rw [hlook k hk] at this
    exact ⟨⟨k, hk⟩, hne, this⟩
  · rintro ⟨⟨k, hk⟩, hne, hr⟩
    rw [← hlook k hk] at hr
    obtain ⟨b', hb'⟩ := (addArgs_iff args b).2 hr
    simp only [case_, hk, hb', if_neg hne]

/-- **C137** (partial): a call whose condition is refused, or that has no statement, changes nothing.
Missing: calls refused because of a later argument, see `not_AtomicClaim`. -/
theorem atomic_partial {w : Nat} (h1 : 1 ≤ w) (h2 : w ≤ 63) {sgn : Bool} (b : Body S) (cond : Option Int)
    (args : List (Arg S)) (h : (∃ z, cond = some z ∧ ¬ Const.Representable sgn w z) ∨ args = []) :
    (case_ w sgn b cond args).1 = b ∧ (case_ w sgn b cond args).2 ≠ .ok () := by
  rcases h with ⟨z, rfl, hz⟩ | rfl
  · have : ∀ k, keyOf w sgn (some z) ≠ .ok k := fun k hk => hz ((keyOf_ok h1 h2).1 hk).1
    simp only [case_]
    split
    · rename_i k hk; exact absurd hk (this k)
    · exact ⟨rfl, nofun⟩
    · exact ⟨rfl, nofun⟩
  · simp only [case_, addArgs]
    split
    · exact ⟨rfl, nofun⟩
    · exact ⟨rfl, nofun⟩
    · exact ⟨rfl, nofun⟩

/-- **C137** (partial): a switch whose calls were accepted can be printed if no argument is an empty block.
Missing: empty blocks, see `not_PrintClaim`. -/
theorem print_partial {w : Nat} (h1 : 1 ≤ w) (h2 : w ≤ 63) {sgn : Bool} {calls : List (Option Int × List (Arg S))}
    {b : Body S} (h : build w sgn [] calls = some b) (he : ∀ c ∈ calls, Arg.block [] ∉ c.2) :
    printable b = true := by
  obtain ⟨g1, g2, g3, g4⟩ := build_look h1 h2 calls [] b h
  have hn := g1 List.nodup_nil
  unfold printable
  rw [List.all_eq_true]
  rintro ⟨k, l⟩ hx
  rw [mem_iff_look hn] at hx
  have : ∃ c ∈ calls, keyOf w sgn c.1 = .ok k := by
    by_cases hc : ∃ c ∈ calls, keyOf w sgn c.1 = .ok k
    · exact hc
    · rw [g3 _ fun c hm e => hc ⟨c, hm, e⟩] at hx
      cases hx
  obtain ⟨c, hc, hk⟩ := this
  rw [g4 c.1 k hk ⟨c, hc, rfl⟩] at hx
  simp only [look, Option.getD_none, List.nil_append, Option.some.injEq] at hx
  have hl : l ≠ [] := by
    rw [← hx]
    intro h0
    obtain ⟨hne, hbad, _⟩ := g2 c hc
    obtain ⟨a, ha⟩ := List.exists_mem_of_ne_nil _ hne
    have h0' := List.flatMap_eq_nil_iff.1 h0 c (List.mem_filter.2 ⟨hc, by simp⟩)
    have h0'' := List.flatMap_eq_nil_iff.1 h0' a ha
    cases a with
    | one s => cases h0''
    | block m => cases (show m = [] from h0''); exact he c hc ha
    | bad => exact hbad ha
  simp [hl]

/-- **C137**, the negation: `case_(0, s, 5)` raises for `5`, and `s` stays in the switch. -/
theorem not_AtomicClaim : ¬ AtomicClaim := by
  intro h
  have := h 2 false [] (some 0) [.one 7, .bad] (by decide) (by decide) (by decide +kernel)
  revert this
  decide +kernel

/-- **C137**, the negation: `case_(0, block)` with an empty block is accepted, and printing raises. -/
theorem not_PrintClaim : ¬ PrintClaim := by
  intro h
  have := h 2 false [(some 0, [.block []])] [(some 0#64, [])] (by decide) (by decide) (by decide +kernel)
  revert this
  decide +kernel

/-! ## Cases that meet the hypotheses -/

/-- A signed two-bit target: two calls for `-1`, one for `1`, one for the default. -/
def demo : List (Option Int × List (Arg Nat)) :=
  [(some (-1), [.one 1, .one 2]), (none, [.one 3]), (some 1, [.one 4]), (some (-1), [.block [5, 6]])]

def demoBody : Body Nat := [(some (BitVec.ofInt 64 (-1)), [1, 2, 5, 6]), (none, [3]), (some 1#64, [4])]

theorem demo_built : build 2 true [] demo = some demoBody := by decide +kernel

example : Hit demoBody 2 (-1) [1, 2, 5, 6] :=
  ((case_runs (by decide) (by decide) demo_built).1 (-1) (by decide) _).2 ⟨by decide, by decide⟩

example : ∀ l, ¬ Hit demoBody 2 0 l := fun l hl =>
  absurd (((case_runs (by decide) (by decide) demo_built).1 0 (by decide) l).1 hl).1 (by decide)

/-- `2` is not a signed two-bit number. -/
example : (case_ 2 true demoBody (some 2) [.one 9]).2 ≠ .ok () := fun h =>
  absurd (((case_accepted (by decide) (by decide) demo_built (some 2) [.one 9]).1 h).1 2 rfl) (by decide)

example : (case_ 2 true demoBody (some (-2)) [.one 1]).2 = .ok () :=
  (case_accepted (by decide) (by decide) demo_built (some (-2)) [.one 1]).2
    ⟨by rintro z h; cases h; decide, by decide, by decide, by decide, by decide⟩

example : printable demoBody = true := print_partial (by decide) (by decide) demo_built (by decide)

example : (case_ 2 true demoBody (some 0) []).1 = demoBody :=
  (atomic_partial (by decide) (by decide) demoBody (some 0) [] (.inr rfl)).1

end Kratos.CaseCalls
