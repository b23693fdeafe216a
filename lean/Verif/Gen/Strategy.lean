import Verif.Gen.CtxProps
import Verif.Graph.Levels

/-!
# C109: the strategy of hashing does not change which modules are merged

Model of `hash_generators_context` (src/hash.cc:362-442) with its two strategies, on top of the orders of C45 and
the uniquification of C43.  The number computed from a body (`HashVisitor`, C44) is an argument: it may read
the numbers of the instantiated generators and nothing else of the context.
-/

namespace Kratos.Strategy

open Kratos.Gen Kratos.Graph

/-! ## Model -/

/-- What hashing reads. `file g`: the external generator has a file (`external_filename`); `body` is
`HashVisitor` with the hashes of the context. -/
structure Env where
  c : Ctx
  root : Nat
  orphan : Nat → Bool
  file : Nat → Bool
  nameH : Name → Nat
  srcH : Nat → Nat
  body : Nat → (Nat → Option Nat) → Res Nat

/-- `Context::is_unique` (src/context.cc:142-153). -/
def isUnique (c : Ctx) (g : Nat) : Bool := match c.modules.find (c.name g) with
  | none => false
  | some l => (l.filter fun x => !c.ext x && (c.cloneOf x).isNone).length == 1

/-- `hash_generator` (src/hash.cc:351-360). -/
def hashGen (E : Env) (g : Nat) (m : Map Nat Nat) : Res Nat :=
  if isUnique E.c g then .ok (E.nameH (E.c.name g)) else E.body g m.find

/-- `Context::add_hash` (src/context.cc:47-51). -/
def addHash (m : Map Nat Nat) (g v : Nat) : Res (Map Nat Nat) :=
  if m.has g then .throw .user else .ok (m.put g v)

/-- The first loop of the sequential strategy (src/hash.cc:388-412); the second component is `list`. -/
def seqFirst (E : Env) : List Nat → Map Nat Nat × List Nat → Res (Map Nat Nat × List Nat)
  | [], s => .ok s
  | g :: gs, s =>
      if E.c.ext g then
        if E.file g then (addHash s.1 g (E.srcH g)).bind fun m => seqFirst E gs (m, s.2)
        else seqFirst E gs s
      else if (E.c.lookup (E.c.name g)).length = 1 then
        (addHash s.1 g (E.nameH (E.c.name g))).bind fun m => seqFirst E gs (m, s.2)
      else if E.orphan g = true ∧ g ≠ E.root then seqFirst E gs s
      else seqFirst E gs (s.1, s.2 ++ [g])

/-- The second loop (src/hash.cc:413-416). -/
def seqSecond (E : Env) : List Nat → Map Nat Nat → Res (Map Nat Nat)
  | [], m => .ok m
  | g :: gs, m => (hashGen E g m).bind fun v => (addHash m g v).bind fun m' => seqSecond E gs m'

/-- `SequentialHash`; `order` is `get_sorted_nodes()`. -/
def sequential (E : Env) (order : List Nat) (m : Map Nat Nat) : Res (Map Nat Nat) :=
  (seqFirst E order (m, [])).bind fun s => seqSecond E s.2 s.1

/-- The tasks of a level (src/hash.cc:425-432).  They only read the context, and nothing is written before
`cxxpool::get` has all results, so the order in which the threads run them does not matter. -/
def values (E : Env) (m : Map Nat Nat) : List Nat → Res (List (Nat × Nat))
  | [] => .ok []
  | g :: gs => (hashGen E g m).bind fun v => (values E m gs).bind fun r => .ok ((g, v) :: r)

/-- src/hash.cc:433-437. -/
def store : List (Nat × Nat) → Map Nat Nat → Res (Map Nat Nat)
  | [], m => .ok m
  | e :: es, m => (addHash m e.1 e.2).bind fun m' => store es m'

/-- `ParallelHash` (src/hash.cc:417-439); the levels come deepest first. -/
def parallel (E : Env) : List (List Nat) → Map Nat Nat → Res (Map Nat Nat)
  | [], m => .ok m
  | l :: ls, m => (values E m l).bind fun r => (store r m).bind fun m' => parallel E ls m'

/-- `get_leveled_nodes()`, read from the last to the first (src/hash.cc:421-424). -/
def levels (idx ord : List (Nat × Nat)) : List (List Nat) :=
  ((List.range (maxLevel idx + 1)).reverse).map (levelOf ord)

/-! ## Specification -/

/-- A design: generators with instances `kids`; `insts g` are the instances with an instantiation statement in `g`.
Generators that are not external are known to the context and are not clones; a body reads the numbers of its
instances only, and has a number when they have. -/
structure Design (E : Env) (kids insts : Nat → List Nat) : Prop where
  nodup : ∀ n, (E.c.lookup n).Nodup
  known : ∀ g d, Below kids E.root g d → E.c.ext g = false → g ∈ E.c.lookup (E.c.name g) ∧ E.c.cloneOf g = none
  placed : ∀ g d, Below kids E.root g d → g ≠ E.root → E.orphan g = false
  inst : ∀ g, ∀ k ∈ insts g, k ∈ kids g
  reads : ∀ g h h', (∀ k ∈ insts g, h k = h' k) → E.body g h = E.body g h'
  total : ∀ g h, (∀ k ∈ insts g, h k ≠ none) → ∃ v, E.body g h = .ok v

/-- No generator that is not external instantiates an external one by a statement.  In the order of `verilog`, there
are no instantiation statements at all when hashes are computed. -/
def NoExternalInst (E : Env) (insts : Nat → List Nat) : Prop :=
  ∀ g, E.c.ext g = false → ∀ k ∈ insts g, E.c.ext k = false

/-- No other generator carries the name of `g` (external ones and clones aside). -/
def Alone (E : Env) (g : Nat) : Prop :=
  ∀ x ∈ E.c.lookup (E.c.name g), E.c.ext x = false → E.c.cloneOf x = none → x = g

/-- Both strategies, in every order the containers may give, succeed and lead to the same uniquification. -/
def Agree (E : Env) (kids : Nat → List Nat) (start : Map Nat Nat) : Prop :=
  ∀ order idx ord, BottomUp kids E.root order → (idx.map (·.1)).Nodup → (∀ g d, (g, d) ∈ idx ↔ Below kids E.root g d) →
    ord.Perm idx → ∃ ms mp, sequential E order start = .ok ms ∧ parallel E (levels idx ord) start = .ok mp ∧
      (∀ g d, Below kids E.root g d → E.c.ext g = false → ∃ v, ms.find g = some v ∧
        (Alone E g → v = E.nameH (E.c.name g)) ∧ (¬ Alone E g → E.body g ms.find = .ok v)) ∧
      (∀ g, E.c.ext g = false → ms.find g = mp.find g) ∧
      ∀ tracked by_ names, (∀ l, (by_ l).Perm l) → uniquify ms tracked by_ names E.c = uniquify mp tracked by_ names E.c

/-- C109 in full: for every design and every start. -/
def StrategyClaim : Prop :=
  ∀ E kids insts start, Design E kids insts → Agree E kids start

/-! ## Uniquification reads only the hashes of generators that are not external -/

theorem changeName_ext (c : Ctx) (g : Nat) (n : Name) : (changeName c g n).1.ext = c.ext := by
  unfold changeName
  split
  · rfl
  · split
    · rfl
    · split <;> rfl

theorem uniqInsts_congr {h1 h2 : Map Nat Nat} (n : Name) : ∀ (gs : List Nat), (∀ g ∈ gs, h1.find g = h2.find g) →
    ∀ (nm : Map Nat Nat) (news : List Name) (c : Ctx), uniqInsts h1 n gs nm news c = uniqInsts h2 n gs nm news c := by
  intro gs
  induction gs with
  | nil => intro _ nm news c; rfl
  | cons g gs ih =>
    intro h nm news c
    have ih' := ih fun x hx => h x (List.mem_cons_of_mem _ hx)
    unfold uniqInsts
    rw [h g List.mem_cons_self]
    split
    · exact ih' _ _ _
    · split
      · split
        · exact ih' _ _ _
        · congr 1; funext new; congr 1; funext _; exact ih' _ _ _
      · congr 1; funext _; exact ih' _ _ _

theorem uniqInsts_ext (h : Map Nat Nat) (n : Name) : ∀ (gs : List Nat) (nm : Map Nat Nat) (news : List Name) (c c' : Ctx),
    uniqInsts h n gs nm news c = .ok c' → c'.ext = c.ext := by
  intro gs
  induction gs with
  | nil => intro nm news c c' e; simp only [uniqInsts, Res.ok.injEq] at e; rw [e]
  | cons g gs ih =>
    intro nm news c c' e
    unfold uniqInsts at e
    split at e
    · exact ih _ _ _ _ e
    · split at e
      · split at e
        · exact ih _ _ _ _ e
        · simp only [Res.bind_eq_ok] at e
          obtain ⟨a, _, b, _, e⟩ := e
          rw [ih _ _ _ _ e, changeName_ext]
      · simp only [Res.bind_eq_ok] at e
        obtain ⟨b, _, e⟩ := e
        rw [ih _ _ _ _ e, changeName_ext]

theorem arrange_perm (t : Option (Nat → Bool)) (l : List Nat) : (arrange t l).Perm l := by
  cases t with
  | none => exact List.Perm.refl _
  | some f => exact reorder_perm f l

theorem uniquify_congr {h1 h2 : Map Nat Nat} (tracked : Option (Nat → Bool)) (by_ : List Nat → List Nat) :
    ∀ (names : List Name) (c : Ctx), (∀ g, c.ext g = false → h1.find g = h2.find g) →
      uniquify h1 tracked by_ names c = uniquify h2 tracked by_ names c := by
  intro names
  induction names with
  | nil => intro c _; rfl
  | cons n ns ih =>
    intro c h
    have e1 : uniqName h1 tracked by_ c n = uniqName h2 tracked by_ c n := by
      unfold uniqName
      dsimp only
      split
      · rfl
      · apply uniqInsts_congr
        intro g hg
        have := (arrange_perm tracked _).mem_iff.1 hg
        rw [List.mem_filter] at this
        exact h g (by simpa using this.2)
    simp only [uniquify, e1]
    cases h2' : uniqName h2 tracked by_ c n with
    | throw e => rfl
    | ub => rfl
    | ok c' =>
      simp only [Res.ok_bind]
      apply ih
      have : c'.ext = c.ext := by
        unfold uniqName at h2'
        dsimp only at h2'
        split at h2'
        · cases h2'; rfl
        · exact uniqInsts_ext _ _ _ _ _ _ _ h2'
      rw [this]
      exact h

/-! ## Both strategies -/

theorem has_of_find_none {m : Map Nat Nat} {g : Nat} (h : m.find g = none) : m.has g = false := by
  unfold Map.has; rw [h]; rfl

theorem addHash_ok {m : Map Nat Nat} {g v : Nat} (h : m.find g = none) : addHash m g v = .ok (m.put g v) := by
  unfold addHash
  rw [has_of_find_none h]
  rfl

theorem hashGen_congr {E : Env} {kids insts : Nat → List Nat} (hd : Design E kids insts) {g : Nat} {m m' : Map Nat Nat}
    (h : ∀ k ∈ insts g, m.find k = m'.find k) : hashGen E g m = hashGen E g m' := by
  unfold hashGen
  split
  · rfl
  · exact hd.reads g _ _ h

theorem hashGen_ok {E : Env} {kids insts : Nat → List Nat} (hd : Design E kids insts) {g : Nat} {m : Map Nat Nat}
    (h : ∀ k ∈ insts g, m.find k ≠ none) : ∃ v, hashGen E g m = .ok v := by
  unfold hashGen
  split
  · exact ⟨_, rfl⟩
  · exact hd.total g _ h

theorem seqSecond_spec {E : Env} {kids insts : Nat → List Nat} (hd : Design E kids insts) : ∀ (L : List Nat) (m : Map Nat Nat),
    L.Nodup → (∀ g ∈ L, m.find g = none) →
    (∀ a g b, L = a ++ g :: b → ∀ k ∈ insts g, m.find k ≠ none ∨ k ∈ a) →
    ∃ m', seqSecond E L m = .ok m' ∧ (∀ g, g ∉ L → m'.find g = m.find g) ∧
      ∀ g ∈ L, ∃ v, m'.find g = some v ∧ hashGen E g m' = .ok v := by
  intro L
  induction L with
  | nil => intro m _ _ _; exact ⟨m, rfl, fun _ _ => rfl, by simp⟩
  | cons g gs ih =>
    intro m hn hf hk
    rw [List.nodup_cons] at hn
    have hk0 : ∀ k ∈ insts g, m.find k ≠ none := by
      intro k hk'
      rcases hk [] g gs rfl k hk' with h | h
      · exact h
      · cases h
    obtain ⟨v, hv⟩ := hashGen_ok hd hk0
    have hg := hf g List.mem_cons_self
    have hput : ∀ x, (m.put g v).find x = if x = g then some v else m.find x := fun x => Map.find_put m g x v
    obtain ⟨m', h1, h2, h3⟩ := ih (m.put g v) hn.2 (by
        intro x hx
        rw [hput, if_neg (fun (e : x = g) => hn.1 (e ▸ hx))]
        exact hf x (List.mem_cons_of_mem _ hx)) (by
        intro a x b e k hk'
        rcases hk (g :: a) x b (by rw [e]; rfl) k hk' with h | h
        · left
          rw [hput]
          split
          · simp
          · exact h
        · rcases List.mem_cons.1 h with rfl | h
          · left; rw [hput, if_pos rfl]; simp
          · exact Or.inr h)
    refine ⟨m', ?_, ?_, ?_⟩
    · simp only [seqSecond, hv, Res.ok_bind, addHash_ok hg, h1]
    · intro x hx
      rw [h2 x (fun h => hx (List.mem_cons_of_mem _ h)), hput, if_neg (fun (e : x = g) => hx (by rw [e]; exact List.mem_cons_self))]
    · intro x hx
      rcases List.mem_cons.1 hx with rfl | hx
      · refine ⟨v, by rw [h2 x hn.1, hput, if_pos rfl], ?_⟩
        rw [← hv]
        apply hashGen_congr hd
        intro k hk'
        have hne := hk0 k hk'
        have h4 : k ∉ gs := fun h => hne (hf k (List.mem_cons_of_mem _ h))
        have h5 : k ≠ x := fun e => hne (e ▸ hg)
        rw [h2 k h4, hput, if_neg h5]
      · exact h3 x hx

/-- The numbers the first loop gives. -/
def early (E : Env) (g : Nat) : Option Nat :=
  if E.c.ext g then (if E.file g then some (E.srcH g) else none)
  else if (E.c.lookup (E.c.name g)).length = 1 then some (E.nameH (E.c.name g)) else none

/-- The generators left to the second loop. -/
def late (E : Env) (g : Nat) : Bool := !E.c.ext g && decide ((E.c.lookup (E.c.name g)).length ≠ 1)

theorem seqFirst_spec {E : Env} : ∀ (l : List Nat) (m : Map Nat Nat) (L : List Nat), l.Nodup →
    (∀ g ∈ l, m.find g = none) → (∀ g ∈ l, g ≠ E.root → E.orphan g = false) →
    ∃ m', seqFirst E l (m, L) = .ok (m', L ++ l.filter (late E)) ∧
      ∀ g, m'.find g = if g ∈ l then early E g else m.find g := by
  intro l
  induction l with
  | nil => intro m L _ _ _; exact ⟨m, by simp [seqFirst], by simp⟩
  | cons g gs ih =>
    intro m L hn hf ho
    rw [List.nodup_cons] at hn
    have hg := hf g List.mem_cons_self
    have ho' : ∀ x ∈ gs, x ≠ E.root → E.orphan x = false := fun x hx => ho x (List.mem_cons_of_mem _ hx)
    have hf' : ∀ x ∈ gs, m.find x = none := fun x hx => hf x (List.mem_cons_of_mem _ hx)
    have hput : ∀ v, ∀ x, (m.put g v).find x = if x = g then some v else m.find x := fun v x => Map.find_put m g x v
    have hfp : ∀ v, ∀ x ∈ gs, (m.put g v).find x = none := by
      intro v x hx
      rw [hput, if_neg (fun (e : x = g) => hn.1 (e ▸ hx))]
      exact hf' x hx
    -- the two ways to go on
    have goPut : ∀ v, early E g = some v → late E g = false →
        (∃ m', seqFirst E gs (m.put g v, L) = .ok (m', L ++ (g :: gs).filter (late E)) ∧
          ∀ x, m'.find x = if x ∈ g :: gs then early E x else m.find x) := by
      intro v hv hl
      obtain ⟨m', h1, h2⟩ := ih (m.put g v) L hn.2 (hfp v) ho'
      refine ⟨m', by rw [h1, List.filter_cons_of_neg (by rw [hl]; decide)], ?_⟩
      intro x
      rw [h2 x]
      by_cases e : x ∈ gs
      · rw [if_pos e, if_pos (List.mem_cons_of_mem _ e)]
      · rw [if_neg e, hput]
        by_cases e2 : x = g
        · rw [if_pos e2, if_pos (by rw [e2]; exact List.mem_cons_self), e2, hv]
        · rw [if_neg e2, if_neg (by rw [List.mem_cons]; exact fun h => h.elim e2 e)]
    have goSkip : ∀ L', early E g = none → (late E g = true → L' = L ++ [g]) → (late E g = false → L' = L) →
        (∃ m', seqFirst E gs (m, L') = .ok (m', L ++ (g :: gs).filter (late E)) ∧
          ∀ x, m'.find x = if x ∈ g :: gs then early E x else m.find x) := by
      intro L' hv hl1 hl2
      obtain ⟨m', h1, h2⟩ := ih m L' hn.2 hf' ho'
      refine ⟨m', ?_, ?_⟩
      · rw [h1]
        cases hl : late E g with
        | true => rw [hl1 hl, List.filter_cons_of_pos hl]; simp
        | false => rw [hl2 hl, List.filter_cons_of_neg (by rw [hl]; decide)]
      · intro x
        rw [h2 x]
        by_cases e : x ∈ gs
        · rw [if_pos e, if_pos (List.mem_cons_of_mem _ e)]
        · rw [if_neg e]
          by_cases e2 : x = g
          · rw [if_pos (by rw [e2]; exact List.mem_cons_self), e2, hv, hg]
          · rw [if_neg (by rw [List.mem_cons]; exact fun h => h.elim e2 e)]
    unfold seqFirst
    cases he : E.c.ext g with
    | true =>
      rw [if_pos rfl]
      cases hfile : E.file g with
      | true =>
        rw [if_pos rfl, addHash_ok hg, Res.ok_bind]
        exact goPut _ (by simp [early, he, hfile]) (by simp [late, he])
      | false =>
        rw [if_neg (by decide)]
        exact goSkip L (by simp [early, he, hfile]) (by simp [late, he]) (fun _ => rfl)
    | false =>
      rw [if_neg (by decide)]
      by_cases h1 : (E.c.lookup (E.c.name g)).length = 1
      · rw [if_pos h1, addHash_ok hg, Res.ok_bind]
        exact goPut _ (by simp [early, he, h1]) (by simp [late, h1])
      · rw [if_neg h1, if_neg (by
          rintro ⟨ho1, ho2⟩
          rw [ho g List.mem_cons_self ho2] at ho1
          cases ho1)]
        exact goSkip _ (by simp [early, he, h1]) (fun _ => rfl) (by simp [late, he, h1])

theorem single_unique {E : Env} {kids insts : Nat → List Nat} (hd : Design E kids insts) {g d : Nat} (hb : Below kids E.root g d)
    (he : E.c.ext g = false) (h1 : (E.c.lookup (E.c.name g)).length = 1) : isUnique E.c g = true := by
  obtain ⟨h2, h3⟩ := hd.known g d hb he
  unfold Ctx.lookup at h1 h2
  unfold isUnique
  cases hm : E.c.modules.find (E.c.name g) with
  | none => rw [hm] at h2; cases h2
  | some l =>
    rw [hm] at h1 h2
    simp only [Option.getD_some] at h1 h2
    match l, h1 with
    | [x], _ =>
      rw [List.mem_singleton] at h2
      subst h2
      simp [he, h3]

theorem unique_iff {E : Env} {kids insts : Nat → List Nat} (hd : Design E kids insts) {g d : Nat} (hb : Below kids E.root g d)
    (he : E.c.ext g = false) : isUnique E.c g = true ↔ Alone E g := by
  obtain ⟨h2, h3⟩ := hd.known g d hb he
  have h4 := hd.nodup (E.c.name g)
  unfold Alone
  unfold isUnique
  unfold Ctx.lookup at h2 h4 ⊢
  cases hm : E.c.modules.find (E.c.name g) with
  | none => rw [hm] at h2; cases h2
  | some l =>
    rw [hm] at h2 h4
    simp only [Option.getD_some] at h2 h4 ⊢
    have hgf : g ∈ l.filter fun x => !E.c.ext x && (E.c.cloneOf x).isNone := by
      rw [List.mem_filter]; exact ⟨h2, by simp [he, h3]⟩
    rw [beq_iff_eq]
    constructor
    · intro h1 x hx hxe hxc
      have hxf : x ∈ l.filter fun x => !E.c.ext x && (E.c.cloneOf x).isNone := by
        rw [List.mem_filter]; exact ⟨hx, by simp [hxe, hxc]⟩
      obtain ⟨y, hy⟩ := List.length_eq_one_iff.1 h1
      rw [hy, List.mem_singleton] at hgf hxf
      rw [hxf, hgf]
    · intro h
      have hle : (l.filter fun x => !E.c.ext x && (E.c.cloneOf x).isNone).length ≤ [g].length := by
        apply List.Nodup.length_le_of_subset (List.Sublist.nodup List.filter_sublist h4)
        intro x hx
        rw [List.mem_filter] at hx
        simp only [Bool.and_eq_true, Bool.not_eq_true', Option.isNone_iff_eq_none] at hx
        rw [List.mem_singleton]
        exact h x hx.1 hx.2.1 hx.2.2
      have := List.length_pos_of_mem hgf
      simp only [List.length_singleton] at hle
      omega

/-- What both strategies give: every generator that is not external has the number of its body. -/
structure Result (E : Env) (kids : Nat → List Nat) (start m : Map Nat Nat) : Prop where
  inside : ∀ g d, Below kids E.root g d → E.c.ext g = false → ∃ v, m.find g = some v ∧ hashGen E g m = .ok v
  outside : ∀ g, (∀ d, ¬ Below kids E.root g d) → m.find g = start.find g

theorem sequential_spec {E : Env} {kids insts : Nat → List Nat} (hd : Design E kids insts) (hx : NoExternalInst E insts)
    {order : List Nat} (ho : BottomUp kids E.root order) {start : Map Nat Nat}
    (hs : ∀ g d, Below kids E.root g d → start.find g = none) :
    ∃ m, sequential E order start = .ok m ∧ Result E kids start m := by
  obtain ⟨m1, h1, h2⟩ := seqFirst_spec (E := E) order start [] ho.once
    (fun g hg => by obtain ⟨d, hd'⟩ := (ho.all g).1 hg; exact hs g d hd')
    (fun g hg => by obtain ⟨d, hd'⟩ := (ho.all g).1 hg; exact hd.placed g d hd')
  rw [List.nil_append] at h1
  have hearly : ∀ g, late E g = true → early E g = none := by
    intro g hl
    simp only [late, Bool.and_eq_true, Bool.not_eq_true', decide_eq_true_eq] at hl
    simp [early, hl.1, hl.2]
  obtain ⟨m2, h3, h4, h5⟩ := seqSecond_spec hd (order.filter (late E)) m1 (List.Sublist.nodup List.filter_sublist ho.once)
    (by
      intro g hg
      rw [List.mem_filter] at hg
      rw [h2 g, if_pos hg.1]
      exact hearly g hg.2)
    (by
      intro a g b e k hk
      have hgm : g ∈ order.filter (late E) := by rw [e]; simp
      rw [List.mem_filter] at hgm
      have hge : E.c.ext g = false := by
        have := hgm.2
        simp only [late, Bool.and_eq_true, Bool.not_eq_true'] at this
        exact this.1
      have hke := hx g hge k hk
      -- the instance stands before in the order
      obtain ⟨p, q, hpq⟩ := List.append_of_mem hgm.1
      have hkp : k ∈ p := ho.children_first p g q hpq k (hd.inst g k hk)
      have hko : k ∈ order := by rw [hpq]; simp [hkp]
      by_cases hl : late E k = true
      · right
        -- both filtered lists are split at the same place
        rw [hpq, List.filter_append, List.filter_cons_of_pos hgm.2] at e
        have hnd : (p.filter (late E) ++ g :: q.filter (late E)).Nodup := by
          have := List.Sublist.nodup (List.filter_sublist (p := late E)) ho.once
          rw [hpq, List.filter_append, List.filter_cons_of_pos hgm.2] at this
          exact this
        have hga : g ∉ p.filter (late E) := by
          rw [List.nodup_append] at hnd
          exact fun h => hnd.2.2 g h g List.mem_cons_self rfl
        have : p.filter (late E) = a := by
          rcases List.append_eq_append_iff.1 e with ⟨w, e1, e2⟩ | ⟨w, e1, e2⟩
          · cases w with
            | nil => rw [e1, List.append_nil]
            | cons c w =>
              simp only [List.cons_append, List.cons.injEq] at e2
              exfalso
              have hgw : g ∈ q.filter (late E) := by rw [e2.2]; simp
              have hnd2 : (g :: q.filter (late E)).Nodup := by
                have := List.Sublist.nodup (List.filter_sublist (p := late E)) ho.once
                rw [hpq, List.filter_append, List.filter_cons_of_pos hgm.2, List.nodup_append] at this
                exact this.2.1
              exact (List.nodup_cons.1 hnd2).1 hgw
          · cases w with
            | nil => rw [e1, List.append_nil]
            | cons c w =>
              simp only [List.cons_append, List.cons.injEq] at e2
              exact absurd (by rw [e1, ← e2.1]; simp) hga
        rw [← this, List.mem_filter]
        exact ⟨hkp, hl⟩
      · left
        rw [h2 k, if_pos hko]
        have hlen : (E.c.lookup (E.c.name k)).length = 1 := by
          simp only [late, hke, Bool.not_false, Bool.true_and, decide_eq_true_eq, ne_eq, Classical.not_not] at hl
          exact hl
        simp [early, hke, hlen])
  refine ⟨m2, ?_, ?_, ?_⟩
  · unfold sequential
    rw [h1, Res.ok_bind]
    exact h3
  · intro g d hb he
    have hgo : g ∈ order := (ho.all g).2 ⟨d, hb⟩
    by_cases h6 : (E.c.lookup (E.c.name g)).length = 1
    · have hnl : g ∉ order.filter (late E) := by
        rw [List.mem_filter]
        rintro ⟨_, h⟩
        simp [late, h6] at h
      refine ⟨E.nameH (E.c.name g), ?_, ?_⟩
      · rw [h4 g hnl, h2 g, if_pos hgo]
        simp [early, he, h6]
      · unfold hashGen
        rw [single_unique hd hb he h6]
        rfl
    · exact h5 g (by rw [List.mem_filter]; exact ⟨hgo, by simp [late, he, h6]⟩)
  · intro g hb
    have hgo : g ∉ order := fun h => by obtain ⟨d, hd'⟩ := (ho.all g).1 h; exact hb d hd'
    rw [h4 g (fun h => hgo (List.mem_filter.1 h).1), h2 g, if_neg hgo]

theorem store_spec : ∀ (r : List (Nat × Nat)) (m : Map Nat Nat), (r.map (·.1)).Nodup → (∀ e ∈ r, m.find e.1 = none) →
    ∃ m', store r m = .ok m' ∧ (∀ g, g ∉ r.map (·.1) → m'.find g = m.find g) ∧ ∀ e ∈ r, m'.find e.1 = some e.2 := by
  intro r
  induction r with
  | nil => intro m _ _; exact ⟨m, rfl, fun _ _ => rfl, by simp⟩
  | cons e es ih =>
    intro m hn hf
    rw [List.map_cons, List.nodup_cons] at hn
    have hput : ∀ x, (m.put e.1 e.2).find x = if x = e.1 then some e.2 else m.find x := fun x => Map.find_put m e.1 x e.2
    obtain ⟨m', h1, h2, h3⟩ := ih (m.put e.1 e.2) hn.2 (by
      intro x hx
      rw [hput, if_neg (fun h => hn.1 (by rw [← h]; exact List.mem_map.2 ⟨x, hx, rfl⟩))]
      exact hf x (List.mem_cons_of_mem _ hx))
    refine ⟨m', ?_, ?_, ?_⟩
    · simp only [store, addHash_ok (hf e List.mem_cons_self), Res.ok_bind, h1]
    · intro g hg
      rw [List.map_cons, List.mem_cons] at hg
      rw [h2 g (fun h => hg (Or.inr h)), hput, if_neg (fun h => hg (Or.inl h))]
    · intro x hx
      rcases List.mem_cons.1 hx with rfl | hx
      · rw [h2 _ hn.1, hput, if_pos rfl]
      · exact h3 x hx

theorem values_spec {E : Env} {m : Map Nat Nat} : ∀ (l : List Nat), (∀ g ∈ l, ∃ v, hashGen E g m = .ok v) →
    ∃ r, values E m l = .ok r ∧ r.map (·.1) = l ∧ ∀ e ∈ r, hashGen E e.1 m = .ok e.2 := by
  intro l
  induction l with
  | nil => intro _; exact ⟨[], rfl, rfl, by simp⟩
  | cons g gs ih =>
    intro h
    obtain ⟨v, hv⟩ := h g List.mem_cons_self
    obtain ⟨r, h1, h2, h3⟩ := ih fun x hx => h x (List.mem_cons_of_mem _ hx)
    refine ⟨(g, v) :: r, by simp only [values, hv, Res.ok_bind, h1], by rw [List.map_cons, h2], ?_⟩
    intro e he
    rcases List.mem_cons.1 he with rfl | he
    · exact hv
    · exact h3 e he

theorem parallel_loop {E : Env} {kids insts : Nat → List Nat} (hd : Design E kids insts) : ∀ (ls : List (List Nat)) (m : Map Nat Nat),
    ls.flatten.Nodup → (∀ g ∈ ls.flatten, m.find g = none) →
    (∀ a l b, ls = a ++ l :: b → ∀ g ∈ l, ∀ k ∈ insts g, m.find k ≠ none ∨ k ∈ a.flatten) →
    ∃ m', parallel E ls m = .ok m' ∧ (∀ g, g ∉ ls.flatten → m'.find g = m.find g) ∧
      ∀ g ∈ ls.flatten, ∃ v, m'.find g = some v ∧ hashGen E g m' = .ok v := by
  intro ls
  induction ls with
  | nil => intro m _ _ _; exact ⟨m, rfl, fun _ _ => rfl, by simp⟩
  | cons l ls ih =>
    intro m hn hf hk
    rw [List.flatten_cons, List.nodup_append] at hn
    have hk0 : ∀ g ∈ l, ∀ k ∈ insts g, m.find k ≠ none := by
      intro g hg k hk'
      rcases hk [] l ls rfl g hg k hk' with h | h
      · exact h
      · cases h
    have hfl : ∀ g ∈ l, m.find g = none := fun g hg => hf g (by simp [hg])
    obtain ⟨r, hv, hr1, hr2⟩ := values_spec (E := E) (m := m) l fun g hg => hashGen_ok hd (hk0 g hg)
    obtain ⟨m1, hs, hs1, hs2⟩ := store_spec r m (by rw [hr1]; exact hn.1) (by
      intro e he
      exact hfl e.1 (by rw [← hr1]; exact List.mem_map.2 ⟨e, he, rfl⟩))
    rw [hr1] at hs1
    have hs3 : ∀ g ∈ l, ∃ v, m1.find g = some v ∧ hashGen E g m = .ok v := by
      intro g hg
      rw [← hr1] at hg
      obtain ⟨e, he, rfl⟩ := List.mem_map.1 hg
      exact ⟨e.2, hs2 e he, hr2 e he⟩
    obtain ⟨m', h1, h2, h3⟩ := ih m1 hn.2.1 (by
      intro g hg
      rw [hs1 g (fun h => hn.2.2 g h g hg rfl)]
      exact hf g (by simp [hg])) (by
      intro a l' b e g hg k hk'
      rcases hk (l :: a) l' b (by rw [e]; rfl) g hg k hk' with h | h
      · left
        by_cases e1 : k ∈ l
        · exact absurd (hfl k e1) h
        · rw [hs1 k e1]; exact h
      · rw [List.flatten_cons, List.mem_append] at h
        rcases h with h | h
        · left
          obtain ⟨v, hv', _⟩ := hs3 k h
          rw [hv']; simp
        · exact Or.inr h)
    refine ⟨m', ?_, ?_, ?_⟩
    · simp only [parallel, hv, Res.ok_bind, hs, h1]
    · intro g hg
      rw [List.flatten_cons, List.mem_append, not_or] at hg
      rw [h2 g hg.2, hs1 g hg.1]
    · intro g hg
      rw [List.flatten_cons, List.mem_append] at hg
      rcases hg with hg | hg
      · obtain ⟨v, hv1, hv2⟩ := hs3 g hg
        refine ⟨v, by rw [h2 g (fun h => hn.2.2 g hg g h rfl)]; exact hv1, ?_⟩
        rw [← hv2]
        apply hashGen_congr hd
        intro k hk'
        have hne := hk0 g hg k hk'
        have h4 : k ∉ l := fun h => hne (hfl k h)
        have h5 : k ∉ ls.flatten := fun h => hne (hf k (by rw [List.flatten_cons, List.mem_append]; exact Or.inr h))
        rw [h2 k h5, hs1 k h4]
      · exact h3 g hg

theorem parallel_spec {E : Env} {kids insts : Nat → List Nat} (hd : Design E kids insts)
    {idx ord : List (Nat × Nat)} (hi : (idx.map (·.1)).Nodup) (hb : ∀ g d, (g, d) ∈ idx ↔ Below kids E.root g d)
    (hp : ord.Perm idx) {start : Map Nat Nat} (hs : ∀ g d, Below kids E.root g d → start.find g = none) :
    ∃ m, parallel E (levels idx ord) start = .ok m ∧ Result E kids start m := by
  have hmem : ∀ g d, (g, d) ∈ ord ↔ Below kids E.root g d := fun g d => hp.mem_iff.trans (hb g d)
  have hon : (ord.map (·.1)).Nodup := (hp.map _).nodup_iff.2 hi
  have hu : ∀ g d d', (g, d) ∈ ord → (g, d') ∈ ord → d = d' := by
    intro g d d' h1 h2
    have e1 := Map.find_of_mem (m := ord) hon h1
    rw [Map.find_of_mem (m := ord) hon h2] at e1
    exact (Option.some.inj e1).symm
  have hmax : ∀ g d, Below kids E.root g d → d < maxLevel idx + 1 := by
    intro g d h
    have := (le_foldl_max idx 0).2 (g, d) ((hb g d).2 h)
    unfold maxLevel
    omega
  have hflat : (levels idx ord).flatten = ((List.range (maxLevel idx + 1)).reverse).flatMap (levelOf ord) := by
    rw [levels, ← List.flatMap_def]
  have hin : ∀ g, g ∈ (levels idx ord).flatten ↔ ∃ d, Below kids E.root g d := by
    intro g
    rw [hflat, List.mem_flatMap]
    constructor
    · rintro ⟨d, _, h⟩; exact ⟨d, (hmem g d).1 (mem_levelOf.1 h)⟩
    · rintro ⟨d, h⟩
      exact ⟨d, by simp [hmax g d h], mem_levelOf.2 ((hmem g d).2 h)⟩
  have hnd : (levels idx ord).flatten.Nodup := by
    rw [hflat]
    exact nodup_levels hon hu _ ((List.reverse_perm _).nodup_iff.2 List.nodup_range)
  obtain ⟨m, h1, h2, h3⟩ := parallel_loop hd (levels idx ord) start hnd
    (fun g hg => by obtain ⟨d, h⟩ := (hin g).1 hg; exact hs g d h)
    (by
      intro a l b e g hg k hk
      right
      -- the level of the list, and those before it
      unfold levels at e
      obtain ⟨x, y, e1, e2, e3⟩ := List.map_eq_append_iff.1 e
      obtain ⟨d, y', e4, e5, e6⟩ := List.map_eq_cons_iff.1 e3
      subst e4
      subst e5
      subst e2
      have hgd := (hmem g d).1 (mem_levelOf.1 hg)
      have hkb : Below kids E.root k (d + 1) := .step hgd (hd.inst g k hk)
      rw [← List.flatMap_def, List.mem_flatMap]
      refine ⟨d + 1, ?_, mem_levelOf.2 ((hmem k (d + 1)).2 hkb)⟩
      have hrange : d + 1 ∈ x ++ d :: y' := by
        rw [← e1]
        simp [hmax k _ hkb]
      have hsort : ((List.range (maxLevel idx + 1)).reverse).Pairwise (· > ·) := by
        rw [List.pairwise_reverse]
        exact List.pairwise_lt_range
      rw [e1, List.pairwise_append, List.pairwise_cons] at hsort
      rcases List.mem_append.1 hrange with h | h
      · exact h
      · rcases List.mem_cons.1 h with h | h
        · omega
        · have := hsort.2.1.1 (d + 1) h
          omega)
  exact ⟨m, h1, fun g d hb' _ => h3 g ((hin g).2 ⟨d, hb'⟩),
    fun g hb' => h2 g (fun h => by obtain ⟨d, h⟩ := (hin g).1 h; exact hb' d h)⟩

/-- Two results are the same. -/
theorem result_unique {E : Env} {kids insts : Nat → List Nat} (hd : Design E kids insts) (hx : NoExternalInst E insts)
    {order : List Nat} (ho : BottomUp kids E.root order) {start m m' : Map Nat Nat} (h : Result E kids start m)
    (h' : Result E kids start m') : ∀ g, E.c.ext g = false → m.find g = m'.find g := by
  have main : ∀ (n : Nat) (a b : List Nat), a.length = n → order = a ++ b → ∀ g ∈ a, E.c.ext g = false → m.find g = m'.find g := by
    intro n
    induction n with
    | zero => intro a b hl _ g hg; rw [List.length_eq_zero_iff.1 hl] at hg; cases hg
    | succ n ih =>
      intro a b hl e g hg he
      have hne : a ≠ [] := by intro h; rw [h] at hl; cases hl
      obtain ⟨a', z, rfl⟩ : ∃ a' z, a = a' ++ [z] := ⟨a.dropLast, a.getLast hne, (List.dropLast_concat_getLast hne).symm⟩
      have hl' : a'.length = n := by simp at hl; omega
      have e' : order = a' ++ z :: b := by rw [e]; simp
      rcases List.mem_append.1 hg with hg | hg
      · exact ih a' (z :: b) hl' e' g hg he
      · rw [List.mem_singleton] at hg
        subst hg
        obtain ⟨d, hb⟩ := (ho.all g).1 (by rw [e']; simp)
        obtain ⟨v, h1, h2⟩ := h.inside g d hb he
        obtain ⟨v', h1', h2'⟩ := h'.inside g d hb he
        have : hashGen E g m = hashGen E g m' := by
          apply hashGen_congr hd
          intro k hk
          exact ih a' (g :: b) hl' e' k (ho.children_first a' g b e' k (hd.inst g k hk)) (hx g he k hk)
        rw [h2, h2'] at this
        rw [h1, h1', Res.ok.inj this]
  intro g he
  by_cases hb : ∃ d, Below kids E.root g d
  · exact main order.length order [] rfl (by simp) g ((ho.all g).2 hb) he
  · have hb' : ∀ d, ¬ Below kids E.root g d := fun d h => hb ⟨d, h⟩
    rw [h.outside g hb', h'.outside g hb']

/-! ## Theorems -/

/-- C109, partial: when no external generator is instantiated by a statement (always so in the order of `verilog`) and no
generator of the design has a hash yet (always so unless generated modules are tracked), both strategies succeed in
every order, every generator that is not external gets the same hash (that of its body unless no other has its name), and the same
modules are merged.  What is
missing is false: `external_child`, `tracked_twice`. -/
theorem strategy_partial (E : Env) (kids insts : Nat → List Nat) (hd : Design E kids insts) (hx : NoExternalInst E insts)
    (start : Map Nat Nat) (hs : ∀ g d, Below kids E.root g d → start.find g = none) : Agree E kids start := by
  intro order idx ord ho hi hb hp
  obtain ⟨ms, h1, r1⟩ := sequential_spec hd hx ho hs
  obtain ⟨mp, h2, r2⟩ := parallel_spec hd hi hb hp hs
  have heq := result_unique hd hx ho r1 r2
  refine ⟨ms, mp, h1, h2, ?_, heq, fun tracked by_ names _ => uniquify_congr tracked by_ names E.c heq⟩
  intro g d hb' he
  obtain ⟨v, hv, hv'⟩ := r1.inside g d hb' he
  refine ⟨v, hv, fun ha => ?_, fun ha => ?_⟩
  · unfold hashGen at hv'
    rw [if_pos ((unique_iff hd hb' he).2 ha)] at hv'
    exact (Res.ok.inj hv').symm
  · unfold hashGen at hv'
    rw [if_neg (fun h => ha ((unique_iff hd hb' he).1 h))] at hv'
    exact hv'

/-- The orders exist: for every hierarchy whose graph can be built, with what `get_sorted_nodes` and
`get_leveled_nodes` return. -/
theorem strategy_run_partial (E : Env) (kids insts : Nat → List Nat) (hd : Design E kids insts) (hx : NoExternalInst E insts)
    (start : Map Nat Nat) (hs : ∀ g d, Below kids E.root g d → start.find g = none)
    (fuel : Nat) (ns : List Nat) (es : Edges) (hg : buildGraph kids fuel E.root = .ok (ns, es))
    (nodes' : List Nat) (hn : nodes'.Perm ns) (cord : Nat → List Nat) (hc : ∀ g x, x ∈ cord g ↔ x ∈ childrenOf es g)
    (ord : List (Nat × Nat) → List (Nat × Nat)) (hord : ∀ l, (ord l).Perm l) :
    ∃ order idx ms mp, topSort cord ns.length nodes' = .ok order ∧ levelLoop kids ns.length [(E.root, 0)] [] = .ok idx ∧
      sequential E order start = .ok ms ∧ parallel E (levels idx (ord idx)) start = .ok mp ∧
      (∀ g, E.c.ext g = false → ms.find g = mp.find g) ∧
      ∀ tracked by_ names, (∀ l, (by_ l).Perm l) → uniquify ms tracked by_ names E.c = uniquify mp tracked by_ names E.c := by
  obtain ⟨order, h1, h2⟩ := sorted_bottom_up kids fuel E.root ns es hg nodes' hn cord hc ns.length (Nat.le_refl _)
  obtain ⟨idx, h3, h4, h5⟩ := levels_are_depths kids fuel E.root ns es hg ns.length (Nat.le_refl _)
  obtain ⟨ms, mp, h6, h7, _, h8, h9⟩ := strategy_partial E kids insts hd hx start hs order idx (ord idx) h2 h4 h5 (hord idx)
  exact ⟨order, idx, ms, mp, h1, h3, h6, h7, h8, h9⟩

/-! ## Witnesses: generator 0 contains 1 and 2, of one name, and each contains an instance of something -/

def kids3 : Nat → List Nat
  | 0 => [1, 2]
  | 1 => [3]
  | 2 => [4]
  | _ => []

def insts3 : Nat → List Nat
  | 1 => [3]
  | 2 => [4]
  | _ => []

def names3 : Nat → Name
  | 0 => ['t']
  | 1 => ['a']
  | 2 => ['a']
  | _ => ['x']

/-- Generators 3 and 4 are external when `e` holds. -/
def ctx3 (e : Bool) : Ctx :=
  ⟨[(['t'], [0]), (['a'], [1, 2]), (['x'], [3, 4])], names3, fun g => e && decide (3 ≤ g), fun _ => none, 5⟩

/-- A body whose number is that of its instance plus one. -/
def body3 (g : Nat) (h : Nat → Option Nat) : Res Nat := match g with
  | 1 => match h 3 with
    | some v => .ok (v + 1)
    | none => .throw .user
  | 2 => match h 4 with
    | some v => .ok (v + 1)
    | none => .throw .user
  | 3 => .ok 20
  | 4 => .ok 30
  | _ => .ok 7

def env3 (e : Bool) : Env := ⟨ctx3 e, 0, fun g => g == 0, fun _ => false, fun n => n.length, fun g => g, body3⟩

theorem below3 {g d : Nat} (h : Below kids3 0 g d) : (g = 0 ∧ d = 0) ∨ ((g = 1 ∨ g = 2) ∧ d = 1) ∨ ((g = 3 ∨ g = 4) ∧ d = 2) := by
  induction h with
  | top => simp
  | step _ hc ih =>
    rcases ih with ⟨rfl, rfl⟩ | ⟨rfl | rfl, rfl⟩ | ⟨rfl | rfl, rfl⟩ <;> simp [kids3] at hc <;> simp [hc]

theorem design3 (e : Bool) : Design (env3 e) kids3 insts3 := by
  refine ⟨?_, ?_, ?_, ?_, ?_, ?_⟩
  · intro n
    simp only [env3, ctx3, Ctx.lookup, Map.find]
    split
    · simp
    · split
      · simp
      · split <;> simp
  · intro g d h he
    rcases below3 h with ⟨rfl, _⟩ | ⟨rfl | rfl, _⟩ | ⟨rfl | rfl, _⟩ <;> exact ⟨by cases e <;> decide, rfl⟩
  · intro g d h hg
    rcases below3 h with ⟨rfl, _⟩ | ⟨rfl | rfl, _⟩ | ⟨rfl | rfl, _⟩
    · exact absurd rfl hg
    all_goals rfl
  · intro g k hk
    unfold insts3 at hk
    split at hk <;> first | exact hk | cases hk
  · intro g h h' hh
    show body3 g h = body3 g h'
    unfold body3
    split
    · rw [hh 3 (by simp [insts3])]
    · rw [hh 4 (by simp [insts3])]
    all_goals rfl
  · intro g h hh
    show ∃ v, body3 g h = .ok v
    unfold body3
    split
    · have := hh 3 (by simp [insts3])
      cases h3 : h 3 with
      | none => exact absurd h3 this
      | some v => exact ⟨_, rfl⟩
    · have := hh 4 (by simp [insts3])
      cases h4 : h 4 with
      | none => exact absurd h4 this
      | some v => exact ⟨_, rfl⟩
    all_goals exact ⟨_, rfl⟩

/-- With external instances that were marked by hand, the sequential strategy fails and the parallel one does not. -/
theorem external_child : sequential (env3 true) [3, 4, 1, 2, 0] [] = .throw .user ∧
    parallel (env3 true) [[3, 4], [1, 2], [0]] [] = .ok [(3, 20), (4, 30), (1, 21), (2, 31), (0, 1)] := by decide

/-- When generated modules are tracked the hashes are kept, and a design cannot be hashed again. -/
theorem tracked_twice : ∃ m, parallel (env3 false) [[3, 4], [1, 2], [0]] [] = .ok m ∧
    parallel (env3 false) [[3, 4], [1, 2], [0]] m = .throw .user ∧ sequential (env3 false) [3, 4, 1, 2, 0] m = .throw .user :=
  ⟨[(3, 20), (4, 30), (1, 21), (2, 31), (0, 1)], by decide, by decide, by decide⟩

theorem bottom3 : BottomUp kids3 0 [3, 4, 1, 2, 0] := by
  have hall : ∀ g, g ∈ [3, 4, 1, 2, 0] → ∃ d, Below kids3 0 g d := by
    have b1 : Below kids3 0 1 1 := .step .top (by simp [kids3])
    have b2 : Below kids3 0 2 1 := .step .top (by simp [kids3])
    intro g hg
    simp only [List.mem_cons, List.not_mem_nil, or_false] at hg
    rcases hg with rfl | rfl | rfl | rfl | rfl
    · exact ⟨2, .step b1 (by simp [kids3])⟩
    · exact ⟨2, .step b2 (by simp [kids3])⟩
    · exact ⟨1, b1⟩
    · exact ⟨1, b2⟩
    · exact ⟨0, .top⟩
  refine ⟨by decide, fun g => ⟨hall g, ?_⟩, ?_⟩
  · rintro ⟨d, h⟩
    rcases below3 h with ⟨rfl, _⟩ | ⟨rfl | rfl, _⟩ | ⟨rfl | rfl, _⟩ <;> decide
  · intro a g b e c hc
    match a, e with
    | [], e => simp at e; rw [← e.1] at hc; simp [kids3] at hc
    | [_], e => simp at e; rw [← e.2.1] at hc; simp [kids3] at hc
    | [_, _], e => simp at e; obtain ⟨rfl, rfl, rfl, _⟩ := e; simp [kids3] at hc; simp [hc]
    | [_, _, _], e => simp at e; obtain ⟨rfl, rfl, rfl, rfl, _⟩ := e; simp [kids3] at hc; simp [hc]
    | [_, _, _, _], e => simp at e; obtain ⟨rfl, rfl, rfl, rfl, rfl, _⟩ := e; simp [kids3] at hc; simp [hc]
    | _ :: _ :: _ :: _ :: _ :: r, e => simp at e

def idx3 : List (Nat × Nat) := [(0, 0), (1, 1), (2, 1), (3, 2), (4, 2)]

theorem idx3_iff (g d : Nat) : (g, d) ∈ idx3 ↔ Below kids3 0 g d := by
  have b1 : Below kids3 0 1 1 := .step .top (by simp [kids3])
  have b2 : Below kids3 0 2 1 := .step .top (by simp [kids3])
  constructor
  · intro h
    simp only [idx3, List.mem_cons, List.not_mem_nil, or_false, Prod.mk.injEq] at h
    rcases h with ⟨rfl, rfl⟩ | ⟨rfl, rfl⟩ | ⟨rfl, rfl⟩ | ⟨rfl, rfl⟩ | ⟨rfl, rfl⟩
    · exact .top
    · exact b1
    · exact b2
    · exact .step b1 (by simp [kids3])
    · exact .step b2 (by simp [kids3])
  · intro h
    rcases below3 h with ⟨rfl, rfl⟩ | ⟨rfl | rfl, rfl⟩ | ⟨rfl | rfl, rfl⟩ <;> decide

theorem not_StrategyClaim : ¬ StrategyClaim := by
  intro h
  obtain ⟨ms, _, h1, _⟩ := h (env3 true) kids3 insts3 [] (design3 true) [3, 4, 1, 2, 0] idx3 idx3 bottom3 (by decide)
    idx3_iff (List.Perm.refl _)
  rw [external_child.1] at h1
  cases h1

/-- The hypotheses of `strategy_partial`, and the numbers: 1 and 2 are told apart by what they instantiate. -/
example : NoExternalInst (env3 false) insts3 := fun _ _ _ _ => rfl

example : sequential (env3 false) [3, 4, 1, 2, 0] [] = .ok [(0, 1), (3, 20), (4, 30), (1, 21), (2, 31)] ∧
    levels idx3 idx3 = [[3, 4], [1, 2], [0]] := by decide

end Kratos.Strategy
