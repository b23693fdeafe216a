import Verif.Pass.Decouple

/-!
# Constants wired to instances (property C89)

Models `merge_const_port_assignment` (`MergeConstPortVisitor`, src/optimize.cc:1019-1066) for one generator: a variable
with one source, a constant, and one sink, an input of a child, is taken out and the constant assigned to the port.

Simplifications: a constant object stands in one statement; arrays are left out (the check of `AssignStmt` that compares
`is_packed`).  Statements of the generator and of blocks in it are one list; `place` says where a statement stands.
-/

namespace Kratos.MergeConst

open Kratos.Replace Kratos.Decouple

/-! ### Model -/

/-- Where an assignment stands: directly in the generator, somewhere in an `initial` block, elsewhere in a block or
statement (`Stmt::stmt_parent`, src/stmt.cc:46-58, walks up to the outermost statement). -/
inductive Place where
  | top | init | block
  deriving DecidableEq, Repr

/-- An `AssignStmt`.  `src`, `snk`: the variables in whose `sources_`, `sinks_` it is registered; `dead`: it is in
`stmts_to_remove`; `listed`: it is in the generator's list of statements (of use for `top` only). -/
structure S where
  place : Place
  left : E
  right : E
  src : List Nat
  snk : List Nat
  dead : Bool
  listed : Bool
  deriving DecidableEq, Repr

/-- What the pass asks: is a variable a port of a child of this generator; widths and signs; `Const::is_legal`. -/
structure Ctx where
  childPort : Nat → Bool
  wd : E → Nat
  sg : E → Bool
  legal : Int → Nat → Bool → Bool

/-- The constructor of `AssignStmt` for `port <- constant`, src/stmt.cc:133-176; the constant has the width and sign of
what it was assigned to before. -/
def accepts (C : Ctx) (q : Nat) (k : Int) (a : S) : Bool :=
  C.sg (.var q) == C.sg a.left && (C.wd (.var q) == C.wd a.left || C.legal k (C.wd (.var q)) (C.sg (.var q)))

/-- The statements after the variable `v` is bypassed, src/optimize.cc:1046-1052: the sources of the port are cleared,
the new assignment added, the two statements taken out of the variable's sets and noted. -/
def bypass (v q : Nat) (k : Int) (ss : List S) : List S :=
  (ss.map fun s => { s with
    src := s.src.filter fun x => x ≠ q ∧ x ≠ v
    snk := s.snk.filter fun x => x ≠ v
    dead := s.dead || decide (v ∈ s.src) || decide (v ∈ s.snk) }) ++
  [⟨.top, .var q, .const k, [q], [], false, true⟩]

/-- The body of the loop, src/optimize.cc:1026-1055. -/
def one (C : Ctx) (v : Nat) (ss : List S) : Res (List S × List Nat) :=
  match ss.filter (fun s => decide (v ∈ s.src)), ss.filter (fun s => decide (v ∈ s.snk)) with
  | [a], [b] =>
    if a.place = .init then .ok (ss, [])
    else match a.right, b.left with
      | .const k, .var q =>
        if C.childPort q then
          if accepts C q k a then .ok (bypass v q k ss, [v]) else .throw .var
        else .ok (ss, [])
      | _, _ => .ok (ss, [])
  | _, _ => .ok (ss, [])

/-- The loop over the variables that are not ports. -/
def loop (C : Ctx) : List Nat → List S → Res (List S × List Nat)
  | [], ss => .ok (ss, [])
  | v :: vs, ss => (one C v ss).bind fun r => (loop C vs r.1).bind fun r' => .ok (r'.1, r.2 ++ r'.2)

/-- `remove_var`, src/generator.cc:1270-1283: a variable that is still connected is refused. -/
def removable (ss : List S) (v : Nat) : Bool := ss.all fun s => decide (v ∉ s.src) && decide (v ∉ s.snk)

/-- The pass on a generator with the variables `vs`: the statements, and the variables that are no longer declared.
`remove_stmt` (src/generator.cc:625-634) looks among the generator's own statements only. -/
def mergeConst (C : Ctx) (vs : List Nat) (ss : List S) : Res (List S × List Nat) :=
  (loop C vs ss).bind fun r =>
    if r.2.all (removable r.1) then
      .ok (r.1.map fun s => { s with listed := s.listed && !(s.dead && decide (s.place = .top)) }, r.2)
    else .throw .user

/-! ### Specification -/

/-- A statement that is printed. -/
def Printed (s : S) : Prop := s.place = .top → s.listed = true

/-- The statements inside blocks: what they assign to and what they read, in order. -/
def blocks {V : Type} (O : Ops V) (ρ : Nat → V) (ss : List S) : List (V × V) :=
  (ss.filter fun s => decide (s.place ≠ .top)).map fun s => (ev O ρ s.left, ev O ρ s.right)

/-- Signal values `ρ` are those of the design: continuous assignments hold, and the blocks, whatever they are, accept
what their statements read and assign. -/
def Holds {V : Type} (O : Ops V) (B : List (V × V) → Prop) (ρ : Nat → V) (ss : List S) : Prop :=
  (∀ s ∈ ss, s.place = .top → s.listed = true → ev O ρ s.left = ev O ρ s.right) ∧ B (blocks O ρ ss)

/-- The signals that are still there have the same values before and after. -/
def SameValues (ss ss' : List S) (gone : List Nat) : Prop :=
  ∀ (V : Type) (O : Ops V) (B : List (V × V) → Prop) (σ : Nat → V),
    (∃ ρ, Holds O B ρ ss ∧ ∀ x, x ∉ gone → ρ x = σ x) ↔ (∃ ρ, Holds O B ρ ss' ∧ ∀ x, x ∉ gone → ρ x = σ x)

/-- A design as it comes to the pass: statements of the generator are listed, none is noted; they are registered with
the variables they read and assign; sides have equal types; the variables are different and no ports. -/
structure Start (C : Ctx) (vs : List Nat) (ss : List S) : Prop where
  listed : ∀ s ∈ ss, s.listed = true ∧ s.dead = false
  left : ∀ s ∈ ss, ∀ v, Mentions v s.left → v ∈ s.src ∨ v ∈ s.snk
  right : ∀ s ∈ ss, ∀ v, Mentions v s.right → v ∈ s.snk
  reg : ∀ s ∈ ss, ∀ v, (v ∈ s.src → Mentions v s.left) ∧ (v ∈ s.snk → Mentions v s.left ∨ Mentions v s.right)
  types : ∀ s ∈ ss, (∀ k, s.right ≠ .const k) → C.wd s.left = C.wd s.right ∧ C.sg s.left = C.sg s.right
  nodup : vs.Nodup
  vars : ∀ v ∈ vs, C.childPort v = false

/-- What a user expects: the pass accepts every design, prints no variable that it has removed, and changes no value. -/
def MergeClaim : Prop := ∀ (C : Ctx) (vs : List Nat) (ss : List S), Start C vs ss →
  ∃ ss' gone, mergeConst C vs ss = .ok (ss', gone) ∧
    (∀ s ∈ ss', Printed s → ∀ v ∈ gone, ¬ Mentions v s.left ∧ ¬ Mentions v s.right) ∧ SameValues ss ss' gone

/-- The variables that the pass takes out: one statement assigns it, a constant, not in an `initial` block, and one
statement reads it, which assigns an input of a child. -/
def Taken (C : Ctx) (v : Nat) (ss : List S) : Prop :=
  ∃ a b k q, ss.filter (fun s => decide (v ∈ s.src)) = [a] ∧ ss.filter (fun s => decide (v ∈ s.snk)) = [b] ∧
    a.place ≠ .init ∧ a.right = .const k ∧ b.left = .var q ∧ C.childPort q = true

/-- Both statements stand directly in the generator, the constant is assigned to the whole variable and the port reads
the variable itself. -/
def Direct (v : Nat) (ss : List S) : Prop :=
  (∀ s ∈ ss, v ∈ s.src → s.place = .top ∧ s.left = .var v) ∧ (∀ s ∈ ss, v ∈ s.snk → s.place = .top ∧ s.right = .var v)

/-! ### Proof -/

theorem filter_map_src {v' v q : Nat} {k : Int} (hv : v' ≠ v) (hq : v' ≠ q) (ss : List S) :
    (bypass v q k ss).filter (fun s => decide (v' ∈ s.src)) =
      (ss.filter fun s => decide (v' ∈ s.src)).map fun s => { s with
        src := s.src.filter fun x => x ≠ q ∧ x ≠ v
        snk := s.snk.filter fun x => x ≠ v
        dead := s.dead || decide (v ∈ s.src) || decide (v ∈ s.snk) } := by
  unfold bypass
  rw [List.filter_append, List.filter_map]
  have h1 : ([⟨.top, .var q, .const k, [q], [], false, true⟩] : List S).filter (fun s => decide (v' ∈ s.src)) = [] := by
    simp [hq]
  rw [h1, List.append_nil]
  congr 1
  refine List.filter_congr fun s _ => ?_
  simp [Function.comp_def, List.mem_filter, hv, hq]

theorem filter_map_snk {v' v q : Nat} {k : Int} (hv : v' ≠ v) (ss : List S) :
    (bypass v q k ss).filter (fun s => decide (v' ∈ s.snk)) =
      (ss.filter fun s => decide (v' ∈ s.snk)).map fun s => { s with
        src := s.src.filter fun x => x ≠ q ∧ x ≠ v
        snk := s.snk.filter fun x => x ≠ v
        dead := s.dead || decide (v ∈ s.src) || decide (v ∈ s.snk) } := by
  unfold bypass
  rw [List.filter_append, List.filter_map]
  have h1 : ([⟨.top, .var q, .const k, [q], [], false, true⟩] : List S).filter (fun s => decide (v' ∈ s.snk)) = [] := by
    simp
  rw [h1, List.append_nil]
  congr 1
  refine List.filter_congr fun s _ => ?_
  simp [Function.comp_def, List.mem_filter, hv]

theorem one_not {C : Ctx} {v : Nat} {ss : List S} (h : ¬ Taken C v ss) : one C v ss = .ok (ss, []) := by
  unfold one
  split
  · rename_i a b ha hb
    by_cases hp : a.place = .init
    · rw [if_pos hp]
    · rw [if_neg hp]
      split
      · rename_i k q hk hq
        by_cases hc : C.childPort q = true
        · exact (h ⟨a, b, k, q, ha, hb, hp, hk, hq, hc⟩).elim
        · rw [if_neg hc]
      · rfl
  · rfl

theorem one_taken {C : Ctx} {v : Nat} {ss : List S} {a b : S} {k : Int} {q : Nat}
    (ha : ss.filter (fun s => decide (v ∈ s.src)) = [a]) (hb : ss.filter (fun s => decide (v ∈ s.snk)) = [b])
    (hp : a.place ≠ .init) (hk : a.right = .const k) (hq : b.left = .var q) (hc : C.childPort q = true) :
    one C v ss = if accepts C q k a then .ok (bypass v q k ss, [v]) else .throw .var := by
  unfold one
  rw [ha, hb]
  simp only
  rw [if_neg hp, hk, hq]
  simp only
  rw [if_pos hc]

/-- The statements between two turns of the loop. -/
structure Mid (C : Ctx) (vs : List Nat) (ss : List S) : Prop where
  listed : ∀ s ∈ ss, s.listed = true
  left : ∀ s ∈ ss, ∀ v ∈ vs, Mentions v s.left → v ∈ s.src ∨ v ∈ s.snk
  right : ∀ s ∈ ss, ∀ v ∈ vs, Mentions v s.right → v ∈ s.snk
  types : ∀ s ∈ ss, (∀ k, s.right ≠ .const k) → C.wd s.left = C.wd s.right ∧ C.sg s.left = C.sg s.right
  vars : ∀ v ∈ vs, C.childPort v = false
  direct : ∀ v ∈ vs, Taken C v ss → Direct v ss
  dead : ∀ s ∈ ss, s.dead = true → ∀ v ∈ vs, s.left ≠ .var v ∧ s.right ≠ .var v

theorem taken_bypass {C : Ctx} {v v' q : Nat} {k : Int} (hv : v' ≠ v) (hq : v' ≠ q) {ss : List S} :
    Taken C v' (bypass v q k ss) ↔ Taken C v' ss := by
  unfold Taken
  rw [filter_map_src hv hq, filter_map_snk hv]
  constructor
  · rintro ⟨a, b, k', q', h1, h2, h3, h4, h5, h6⟩
    cases hs : ss.filter (fun s => decide (v' ∈ s.src)) with
    | nil => rw [hs] at h1; cases h1
    | cons x xs =>
      cases ht : ss.filter (fun s => decide (v' ∈ s.snk)) with
      | nil => rw [ht] at h2; cases h2
      | cons y ys =>
        rw [hs, List.map_cons, List.cons.injEq, List.map_eq_nil_iff] at h1
        rw [ht, List.map_cons, List.cons.injEq, List.map_eq_nil_iff] at h2
        obtain ⟨rfl, rfl⟩ := h1
        obtain ⟨rfl, rfl⟩ := h2
        exact ⟨x, y, k', q', rfl, rfl, h3, h4, h5, h6⟩
  · rintro ⟨a, b, k', q', h1, h2, h3, h4, h5, h6⟩
    rw [h1, h2]
    exact ⟨_, _, k', q', rfl, rfl, h3, h4, h5, h6⟩

theorem mem_bypass {v q : Nat} {k : Int} {ss : List S} {s : S} (h : s ∈ bypass v q k ss) :
    (∃ t ∈ ss, s = { t with
      src := t.src.filter fun x => x ≠ q ∧ x ≠ v
      snk := t.snk.filter fun x => x ≠ v
      dead := t.dead || decide (v ∈ t.src) || decide (v ∈ t.snk) }) ∨
    s = ⟨.top, .var q, .const k, [q], [], false, true⟩ := by
  rcases List.mem_append.1 h with h | h
  · obtain ⟨t, ht, rfl⟩ := List.mem_map.1 h
    exact .inl ⟨t, ht, rfl⟩
  · exact .inr (List.mem_singleton.1 h)

theorem direct_bypass {v v' q : Nat} {k : Int} (hq : v' ≠ q) {ss : List S} (h : Direct v' ss) :
    Direct v' (bypass v q k ss) := by
  constructor
  · intro s hs hm
    rcases mem_bypass hs with ⟨t, ht, rfl⟩ | rfl
    · exact h.1 t ht (List.mem_filter.1 hm).1
    · exact absurd (List.mem_singleton.1 hm) hq
  · intro s hs hm
    rcases mem_bypass hs with ⟨t, ht, rfl⟩ | rfl
    · exact h.2 t ht (List.mem_filter.1 hm).1
    · cases hm

theorem Mid.step {C : Ctx} {v q : Nat} {k : Int} {vs : List Nat} {ss : List S} (h : Mid C (v :: vs) ss) (hnd : v ∉ vs)
    (ht : Taken C v ss) (hq : C.childPort q = true) : Mid C vs (bypass v q k ss) where
  listed s hs := by
    rcases mem_bypass hs with ⟨t, ht, rfl⟩ | rfl
    · exact h.listed t ht
    · rfl
  left s hs w hw hm := by
    have hwv : w ≠ v := fun e => hnd (e ▸ hw)
    have hwq : w ≠ q := fun e => by have := h.vars w (List.mem_cons_of_mem _ hw); rw [e, hq] at this; cases this
    rcases mem_bypass hs with ⟨t, ht, rfl⟩ | rfl
    · simp only [List.mem_filter, decide_eq_true_eq]
      rcases h.left t ht w (List.mem_cons_of_mem _ hw) hm with q | q
      · exact .inl ⟨q, hwq, hwv⟩
      · exact .inr ⟨q, by simpa using hwv⟩
    · exact absurd (mentions_var.1 hm) (Ne.symm hwq)
  right s hs w hw hm := by
    have hwv : w ≠ v := fun e => hnd (e ▸ hw)
    rcases mem_bypass hs with ⟨t, ht, rfl⟩ | rfl
    · simp only [List.mem_filter, decide_eq_true_eq]
      exact ⟨h.right t ht w (List.mem_cons_of_mem _ hw) hm, by simpa using hwv⟩
    · exact absurd hm mentions_const
  types s hs hk := by
    rcases mem_bypass hs with ⟨t, ht, rfl⟩ | rfl
    · exact h.types t ht hk
    · exact absurd rfl (hk k)
  vars w hw := h.vars w (List.mem_cons_of_mem _ hw)
  direct w hw hT := by
    have hwv : w ≠ v := fun e => hnd (e ▸ hw)
    have hwq : w ≠ q := fun e => by have := h.vars w (List.mem_cons_of_mem _ hw); rw [e, hq] at this; cases this
    exact direct_bypass hwq (h.direct w (List.mem_cons_of_mem _ hw) ((taken_bypass hwv hwq).1 hT))
  dead s hs hd w hw := by
    have hwv : w ≠ v := fun e => hnd (e ▸ hw)
    have hD := h.direct v (List.mem_cons_self ..) ht
    obtain ⟨a, b, k', q', e1, e2, -, hak, hbq, hcq⟩ := ht
    have hwq : w ≠ q' := fun e => by have := h.vars w (List.mem_cons_of_mem _ hw); rw [e, hcq] at this; cases this
    rcases mem_bypass hs with ⟨t, ht, rfl⟩ | rfl
    · simp only [Bool.or_eq_true, decide_eq_true_eq] at hd
      rcases hd with (hd | hd) | hd
      · exact h.dead t ht hd w (List.mem_cons_of_mem _ hw)
      · have hta : t = a := by
          have : t ∈ ss.filter (fun s => decide (v ∈ s.src)) := List.mem_filter.2 ⟨ht, decide_eq_true hd⟩
          rw [e1] at this
          exact List.mem_singleton.1 this
        refine ⟨?_, ?_⟩
        · show t.left ≠ _
          rw [(hD.1 t ht hd).2]
          exact fun e => hwv (by cases e; rfl)
        · show t.right ≠ _
          rw [hta, hak]
          exact nofun
      · have htb : t = b := by
          have : t ∈ ss.filter (fun s => decide (v ∈ s.snk)) := List.mem_filter.2 ⟨ht, decide_eq_true hd⟩
          rw [e2] at this
          exact List.mem_singleton.1 this
        refine ⟨?_, ?_⟩
        · show t.left ≠ _
          rw [htb, hbq]
          exact fun e => hwq (by cases e; rfl)
        · show t.right ≠ _
          rw [(hD.2 t ht hd).2]
          exact fun e => hwv (by cases e; rfl)
    · cases hd

/-- Values that fit what is not noted for removal. -/
def Live {V : Type} (O : Ops V) (B : List (V × V) → Prop) (ρ : Nat → V) (ss : List S) : Prop :=
  (∀ s ∈ ss, s.place = .top → s.dead = false → ev O ρ s.left = ev O ρ s.right) ∧ B (blocks O ρ ss)

theorem blocks_bypass {V : Type} (O : Ops V) (ρ : Nat → V) (v q : Nat) (k : Int) (ss : List S) :
    blocks O ρ (bypass v q k ss) = blocks O ρ ss := by
  unfold blocks bypass
  rw [List.filter_append, List.filter_map, List.map_append, List.map_map]
  have : ([⟨.top, .var q, .const k, [q], [], false, true⟩] : List S).filter (fun s => decide (s.place ≠ .top)) = [] := rfl
  rw [this]
  simp [Function.comp_def]

/-- The variable is gone: no statement that stays mentions it, and none is registered with it. -/
def Gone (v : Nat) (ss : List S) : Prop :=
  ∀ s ∈ ss, v ∉ s.src ∧ v ∉ s.snk ∧ ((s.place = .top → s.dead = false) → ¬ Mentions v s.left ∧ ¬ Mentions v s.right)

theorem Gone.bypass {C : Ctx} {v v2 q : Nat} {k : Int} (hv : C.childPort v = false) (hq : C.childPort q = true)
    {ss : List S} (h : Gone v ss) : Gone v (bypass v2 q k ss) := by
  have hvq : v ≠ q := fun e => by rw [e, hq] at hv; cases hv
  intro s hs
  rcases mem_bypass hs with ⟨t, ht, rfl⟩ | rfl
  · obtain ⟨h1, h2, h3⟩ := h t ht
    refine ⟨fun q => h1 (List.mem_filter.1 q).1, fun q => h2 (List.mem_filter.1 q).1, fun hd => h3 fun hp => ?_⟩
    have := hd hp
    simp only [Bool.or_eq_false_iff] at this
    exact this.1.1
  · exact ⟨fun q => hvq (List.mem_singleton.1 q), nofun, fun _ =>
      ⟨fun q => hvq (mentions_var.1 q).symm, mentions_const⟩⟩

theorem gone_now {C : Ctx} {v q : Nat} {k : Int} {vs : List Nat} {ss : List S} (h : Mid C (v :: vs) ss)
    (ht : Taken C v ss) (hq : C.childPort q = true) : Gone v (bypass v q k ss) := by
  have hv := h.vars v (List.mem_cons_self ..)
  have hvq : v ≠ q := fun e => by rw [e, hq] at hv; cases hv
  have hD := h.direct v (List.mem_cons_self ..) ht
  intro s hs
  rcases mem_bypass hs with ⟨t, ht, rfl⟩ | rfl
  · refine ⟨fun q => ?_, fun q => ?_, fun hd => ?_⟩
    · have := (List.mem_filter.1 q).2
      simp at this
    · have := (List.mem_filter.1 q).2
      simp at this
    · have key : v ∉ t.src ∧ v ∉ t.snk := by
        refine ⟨fun q => ?_, fun q => ?_⟩
        · have := hd (hD.1 t ht q).1
          simp [q] at this
        · have := hd (hD.2 t ht q).1
          simp [q] at this
      refine ⟨fun hm => ?_, fun hm => key.2 (h.right t ht v (List.mem_cons_self ..) hm)⟩
      rcases h.left t ht v (List.mem_cons_self ..) hm with q | q
      · exact key.1 q
      · exact key.2 q
  · exact ⟨fun q => hvq (List.mem_singleton.1 q), nofun, fun _ =>
      ⟨fun q => hvq (mentions_var.1 q).symm, mentions_const⟩⟩

def set {V : Type} (ρ : Nat → V) (v : Nat) (c : V) : Nat → V := fun x => if x = v then c else ρ x

section
variable {V : Type} {O : Ops V} {B : List (V × V) → Prop} {C : Ctx} {v q : Nat} {k : Int} {vs : List Nat} {ss : List S} {a b : S}

theorem live_forward (h : Mid C (v :: vs) ss) (hD : Direct v ss)
    (ha : ss.filter (fun s => decide (v ∈ s.src)) = [a]) (hb : ss.filter (fun s => decide (v ∈ s.snk)) = [b])
    (hk : a.right = .const k) (hq : b.left = .var q) {ρ : Nat → V} (hl : Live O B ρ ss) :
    Live O B ρ (bypass v q k ss) := by
  have ma : a ∈ ss ∧ v ∈ a.src := by
    have : a ∈ ss.filter (fun s => decide (v ∈ s.src)) := by rw [ha]; exact List.mem_singleton.2 rfl
    exact ⟨(List.mem_filter.1 this).1, of_decide_eq_true (List.mem_filter.1 this).2⟩
  have mb : b ∈ ss ∧ v ∈ b.snk := by
    have : b ∈ ss.filter (fun s => decide (v ∈ s.snk)) := by rw [hb]; exact List.mem_singleton.2 rfl
    exact ⟨(List.mem_filter.1 this).1, of_decide_eq_true (List.mem_filter.1 this).2⟩
  obtain ⟨pa, la⟩ := hD.1 a ma.1 ma.2
  obtain ⟨pb, rb⟩ := hD.2 b mb.1 mb.2
  have da : a.dead = false := by
    cases hd : a.dead with
    | false => rfl
    | true => exact absurd la (h.dead a ma.1 hd v (List.mem_cons_self ..)).1
  have db : b.dead = false := by
    cases hd : b.dead with
    | false => rfl
    | true => exact absurd rb (h.dead b mb.1 hd v (List.mem_cons_self ..)).2
  refine ⟨fun s hs hp hd => ?_, by rw [blocks_bypass]; exact hl.2⟩
  rcases mem_bypass hs with ⟨t, ht, rfl⟩ | rfl
  · simp only [Bool.or_eq_false_iff] at hd
    exact hl.1 t ht hp hd.1.1
  · have h1 := hl.1 a ma.1 pa da
    have h2 := hl.1 b mb.1 pb db
    rw [la, hk] at h1
    rw [hq, rb] at h2
    exact h2.trans h1

theorem live_back (h : Mid C (v :: vs) ss) (hD : Direct v ss)
    (ha : ss.filter (fun s => decide (v ∈ s.src)) = [a]) (hb : ss.filter (fun s => decide (v ∈ s.snk)) = [b])
    (hk : a.right = .const k) (hq : b.left = .var q) (hc : C.childPort q = true) {ρ : Nat → V}
    (hl : Live O B ρ (bypass v q k ss)) : Live O B (set ρ v (O.const k)) ss := by
  have hv := h.vars v (List.mem_cons_self ..)
  have hvq : q ≠ v := fun e => by rw [← e, hc] at hv; cases hv
  have frame : ∀ e : E, ¬ Mentions v e → ev O (set ρ v (O.const k)) e = ev O ρ e :=
    fun e he => ev_frame (w := v) (fun x hx => if_neg hx) e he
  have new : ρ q = O.const k :=
    hl.1 ⟨.top, .var q, .const k, [q], [], false, true⟩ (List.mem_append_right _ (List.mem_singleton.2 rfl)) rfl rfl
  refine ⟨fun s hs hp hd => ?_, ?_⟩
  · by_cases h1 : v ∈ s.src
    · have hsa : s = a := by
        have : s ∈ ss.filter (fun s => decide (v ∈ s.src)) := List.mem_filter.2 ⟨hs, decide_eq_true h1⟩
        rw [ha] at this
        exact List.mem_singleton.1 this
      rw [(hD.1 s hs h1).2, hsa, hk]
      show set ρ v _ v = _
      exact if_pos rfl
    · by_cases h2 : v ∈ s.snk
      · have hsb : s = b := by
          have : s ∈ ss.filter (fun s => decide (v ∈ s.snk)) := List.mem_filter.2 ⟨hs, decide_eq_true h2⟩
          rw [hb] at this
          exact List.mem_singleton.1 this
        rw [(hD.2 s hs h2).2, hsb, hq]
        show set ρ v _ q = set ρ v _ v
        rw [set, if_neg hvq, new, set, if_pos rfl]
      · have hnl : ¬ Mentions v s.left := fun hm => by
          rcases h.left s hs v (List.mem_cons_self ..) hm with q | q
          · exact h1 q
          · exact h2 q
        have hnr : ¬ Mentions v s.right := fun hm => h2 (h.right s hs v (List.mem_cons_self ..) hm)
        rw [frame _ hnl, frame _ hnr]
        have := hl.1 _ (List.mem_append_left _ (List.mem_map_of_mem hs)) hp (by simp [h1, h2, hd])
        exact this
  · have : blocks O (set ρ v (O.const k)) ss = blocks O ρ ss := by
      unfold blocks
      refine List.map_congr_left fun s hs => ?_
      obtain ⟨hs, hp⟩ := List.mem_filter.1 hs
      have hp : s.place ≠ .top := of_decide_eq_true hp
      have h2 : v ∉ s.snk := fun q => hp (hD.2 s hs q).1
      have hnl : ¬ Mentions v s.left := fun hm => by
        rcases h.left s hs v (List.mem_cons_self ..) hm with q | q
        · exact hp (hD.1 s hs q).1
        · exact h2 q
      rw [frame _ hnl, frame _ fun hm => h2 (h.right s hs v (List.mem_cons_self ..) hm)]
    rw [this, ← blocks_bypass O ρ v q k]
    exact hl.2

end

theorem Mid.skip {C : Ctx} {v : Nat} {vs : List Nat} {ss : List S} (h : Mid C (v :: vs) ss) : Mid C vs ss :=
  ⟨h.listed, fun s hs w hw => h.left s hs w (List.mem_cons_of_mem _ hw), fun s hs w hw => h.right s hs w (List.mem_cons_of_mem _ hw),
    h.types, fun w hw => h.vars w (List.mem_cons_of_mem _ hw), fun w hw => h.direct w (List.mem_cons_of_mem _ hw),
    fun s hs hd w hw => h.dead s hs hd w (List.mem_cons_of_mem _ hw)⟩

theorem loop_gone {C : Ctx} {v : Nat} (hv : C.childPort v = false) : ∀ (vs : List Nat) {ss ss' : List S} {gone : List Nat},
    loop C vs ss = .ok (ss', gone) → Gone v ss → Gone v ss'
  | [], ss, ss', gone, h, hg => by
    cases h
    exact hg
  | u :: vs, ss, ss', gone, h, hg => by
    simp only [loop, Res.bind_eq_ok, Res.ok.injEq, Prod.mk.injEq] at h
    obtain ⟨⟨s1, g1⟩, h1, ⟨s2, g2⟩, h2, rfl, rfl⟩ := h
    refine loop_gone hv vs h2 ?_
    by_cases hT : Taken C u ss
    · obtain ⟨a, b, k, q, ha, hb, hp, hk, hq, hc⟩ := hT
      rw [one_taken ha hb hp hk hq hc] at h1
      split at h1
      · cases h1
        exact hg.bypass hv hc
      · cases h1
    · rw [one_not hT] at h1
      cases h1
      exact hg

theorem loop_spec {C : Ctx} : ∀ (vs : List Nat) {ss : List S}, vs.Nodup → Mid C vs ss →
    ∃ ss' gone, loop C vs ss = .ok (ss', gone) ∧ (∀ v, v ∈ gone ↔ v ∈ vs ∧ Taken C v ss) ∧ (∀ v ∈ gone, Gone v ss') ∧
      (∀ s ∈ ss', s.listed = true) ∧
      ∀ (V : Type) (O : Ops V) (B : List (V × V) → Prop),
        (∀ ρ, Live O B ρ ss → Live O B ρ ss') ∧
        (∀ ρ, Live O B ρ ss' → ∃ ρ', Live O B ρ' ss ∧ ∀ x, x ∉ gone → ρ' x = ρ x)
  | [], ss, _, h => ⟨ss, [], rfl, by simp, nofun, h.listed, fun _ _ _ => ⟨fun _ h => h, fun ρ h => ⟨ρ, h, fun _ _ => rfl⟩⟩⟩
  | v :: vs, ss, hnd, h => by
    rw [List.nodup_cons] at hnd
    by_cases hT : Taken C v ss
    · have hT' := hT
      have hD := h.direct v (List.mem_cons_self ..) hT
      obtain ⟨a, b, k, q, ha, hb, hp, hk, hq, hc⟩ := hT
      have hacc : accepts C q k a = true := by
        have ma : a ∈ ss ∧ v ∈ a.src := by
          have : a ∈ ss.filter (fun s => decide (v ∈ s.src)) := by rw [ha]; exact List.mem_singleton.2 rfl
          exact ⟨(List.mem_filter.1 this).1, of_decide_eq_true (List.mem_filter.1 this).2⟩
        have mb : b ∈ ss ∧ v ∈ b.snk := by
          have : b ∈ ss.filter (fun s => decide (v ∈ s.snk)) := by rw [hb]; exact List.mem_singleton.2 rfl
          exact ⟨(List.mem_filter.1 this).1, of_decide_eq_true (List.mem_filter.1 this).2⟩
        have := h.types b mb.1 (by rw [(hD.2 b mb.1 mb.2).2]; exact nofun)
        rw [hq, (hD.2 b mb.1 mb.2).2] at this
        unfold accepts
        rw [(hD.1 a ma.1 ma.2).2, this.1, this.2]
        simp
      obtain ⟨ss', gone, h1, h2, h3, h4, h5⟩ := loop_spec vs hnd.2 (h.step (k := k) hnd.1 hT' hc)
      refine ⟨ss', v :: gone, ?_, ?_, ?_, h4, fun V O B => ⟨fun ρ hl => ?_, fun ρ hl => ?_⟩⟩
      · simp only [loop, one_taken ha hb hp hk hq hc, hacc, if_true, Res.ok_bind, h1]
        rfl
      · intro x
        rw [List.mem_cons, List.mem_cons, h2]
        constructor
        · rintro (rfl | ⟨hx, ht⟩)
          · exact ⟨.inl rfl, hT'⟩
          · have hxv : x ≠ v := fun e => hnd.1 (e ▸ hx)
            have hxq : x ≠ q := fun e => by have := h.vars x (List.mem_cons_of_mem _ hx); rw [e, hc] at this; cases this
            exact ⟨.inr hx, (taken_bypass hxv hxq).1 ht⟩
        · rintro ⟨rfl | hx, ht⟩
          · exact .inl rfl
          · have hxv : x ≠ v := fun e => hnd.1 (e ▸ hx)
            have hxq : x ≠ q := fun e => by have := h.vars x (List.mem_cons_of_mem _ hx); rw [e, hc] at this; cases this
            exact .inr ⟨hx, (taken_bypass hxv hxq).2 ht⟩
      · intro x hx
        rcases List.mem_cons.1 hx with rfl | hx
        · exact loop_gone (h.vars x (List.mem_cons_self ..)) vs h1 (gone_now h hT' hc)
        · exact h3 x hx
      · exact (h5 V O B).1 ρ (live_forward h hD ha hb hk hq hl)
      · obtain ⟨ρ1, hl1, he1⟩ := (h5 V O B).2 ρ hl
        refine ⟨_, live_back h hD ha hb hk hq hc hl1, fun x hx => ?_⟩
        rw [List.mem_cons, not_or] at hx
        rw [set, if_neg hx.1]
        exact he1 x hx.2
    · obtain ⟨ss', gone, h1, h2, h3, h4, h5⟩ := loop_spec vs hnd.2 h.skip
      refine ⟨ss', gone, ?_, ?_, h3, h4, h5⟩
      · simp only [loop, one_not hT, Res.ok_bind, h1]
        rfl
      · intro x
        rw [h2, List.mem_cons]
        constructor
        · rintro ⟨hx, ht⟩
          exact ⟨.inr hx, ht⟩
        · rintro ⟨rfl | hx, ht⟩
          · exact (hT ht).elim
          · exact ⟨hx, ht⟩

/-- **C89, partial**: if the statements of every variable that the pass takes out stand directly in the generator, the
constant being assigned to the whole variable and the port reading the variable itself, the pass accepts the design,
takes out exactly the variables that connect a constant to an input of a child, mentions none of them any more, and all
other signals keep their values, whatever the operators and blocks mean. Missing: the other variables it takes out. -/
theorem merge_partial (C : Ctx) (vs : List Nat) (ss : List S) (hS : Start C vs ss)
    (hD : ∀ v ∈ vs, Taken C v ss → Direct v ss) :
    ∃ ss' gone, mergeConst C vs ss = .ok (ss', gone) ∧ (∀ v, v ∈ gone ↔ v ∈ vs ∧ Taken C v ss) ∧
      (∀ s ∈ ss', Printed s → ∀ v ∈ gone, ¬ Mentions v s.left ∧ ¬ Mentions v s.right) ∧ SameValues ss ss' gone := by
  have hM : Mid C vs ss := ⟨fun s hs => (hS.listed s hs).1, fun s hs v _ => hS.left s hs v, fun s hs v _ => hS.right s hs v,
    hS.types, hS.vars, hD, fun s hs hd => by rw [(hS.listed s hs).2] at hd; cases hd⟩
  obtain ⟨s1, gone, h1, h2, h3, h4, h5⟩ := loop_spec vs hS.nodup hM
  have hrem : gone.all (removable s1) = true := by
    rw [List.all_eq_true]
    intro v hv
    unfold removable
    rw [List.all_eq_true]
    intro s hs
    obtain ⟨q1, q2, -⟩ := h3 v hv s hs
    simp [q1, q2]
  have hlive : ∀ (V : Type) (O : Ops V) (B : List (V × V) → Prop) (ρ : Nat → V),
      Holds O B ρ (s1.map fun s => { s with listed := s.listed && !(s.dead && decide (s.place = .top)) }) ↔ Live O B ρ s1 := by
    intro V O B ρ
    have hb : blocks O ρ (s1.map fun s => { s with listed := s.listed && !(s.dead && decide (s.place = .top)) }) =
        blocks O ρ s1 := by
      unfold blocks
      rw [List.filter_map, List.map_map]
      simp [Function.comp_def]
    unfold Holds Live
    rw [hb]
    refine and_congr ⟨fun h s hs hp hd => ?_, fun h s hs hp hl => ?_⟩ Iff.rfl
    · have := h _ (List.mem_map_of_mem hs) hp (by simp [h4 s hs, hd])
      exact this
    · obtain ⟨t, ht, rfl⟩ := List.mem_map.1 hs
      have hp : t.place = .top := hp
      refine h t ht hp ?_
      simpa [h4 t ht, hp] using hl
  have hstart : ∀ (V : Type) (O : Ops V) (B : List (V × V) → Prop) (ρ : Nat → V), Holds O B ρ ss ↔ Live O B ρ ss := by
    intro V O B ρ
    exact and_congr ⟨fun h s hs hp _ => h s hs hp (hS.listed s hs).1, fun h s hs hp _ => h s hs hp (hS.listed s hs).2⟩ Iff.rfl
  refine ⟨s1.map fun s => { s with listed := s.listed && !(s.dead && decide (s.place = .top)) }, gone,
    by simp only [mergeConst, h1, Res.ok_bind, hrem, if_true], h2, ?_, ?_⟩
  · intro s hs hpr v hv
    obtain ⟨t, ht, rfl⟩ := List.mem_map.1 hs
    refine (h3 v hv t ht).2.2 fun hp => ?_
    have := hpr hp
    simpa [h4 t ht, hp] using this
  · intro V O B σ
    constructor
    · rintro ⟨ρ, h, he⟩
      exact ⟨ρ, (hlive V O B ρ).2 ((h5 V O B).1 ρ ((hstart V O B ρ).1 h)), he⟩
    · rintro ⟨ρ, h, he⟩
      obtain ⟨ρ', h', he'⟩ := (h5 V O B).2 ρ ((hlive V O B ρ).1 h)
      exact ⟨ρ', (hstart V O B ρ').2 h', fun x hx => (he' x hx).trans (he x hx)⟩

/-! ### Where it goes wrong, and a case that meets the hypotheses -/

/-- Variables 1, 2, …, ports of children from 100 on; all one bit wide except 1 and 101, which have two. -/
def exCtx : Ctx where
  childPort v := 100 ≤ v
  wd e := match e with
    | .var v => if v = 1 ∨ v = 101 then 2 else 1
    | _ => 1
  sg _ := false
  legal k w _ := 0 ≤ k ∧ k < 2 ^ w

def asn (p : Place) (l r : E) (src snk : List Nat) : S := ⟨p, l, r, src, snk, false, true⟩

/-- `v = 0; child.p = ~v` -/
def inverted : List S := [asn .top (.var 2) (.const 0) [2] [], asn .top (.var 102) (.un 0 (.var 2)) [102] [2]]

/-- **The port gets the wrong value**: the operator between the variable and the port is dropped. -/
theorem inverted_wrong : ∃ ss', mergeConst exCtx [2] inverted = .ok (ss', [2]) ∧
    (ss'.filter fun s => s.listed).map (fun s => (s.left, s.right)) = [(.var 102, .const 0)] :=
  ⟨_, rfl, by decide +kernel⟩

/-- `always_comb v = 1` and `child.p = v`: -/
def inBlock : List S := [asn .block (.var 2) (.const 1) [2] [], asn .top (.var 102) (.var 2) [102] [2]]

/-- **A variable that is no longer declared is assigned**: statements in blocks are not found by the removal. -/
theorem block_lost : ∃ ss', mergeConst exCtx [2] inBlock = .ok (ss', [2]) ∧
    ∃ s ∈ ss', Printed s ∧ s.left = .var 2 :=
  ⟨_, rfl, ⟨.block, .var 2, .const 1, [], [], true, true⟩, by decide +kernel, nofun, rfl⟩

/-- `v[0] = 1` and `child.p = v` with two bits: -/
def oneBit : List S := [asn .top (.sl (.var 1) 0 0) (.const 1) [1] [], asn .top (.var 101) (.var 1) [101] [1]]

/-- **A constant for one bit becomes a constant for all bits**: it is resized to the port. -/
theorem slice_wrong : ∃ ss', mergeConst exCtx [1] oneBit = .ok (ss', [1]) ∧
    (ss'.filter fun s => s.listed).map (fun s => (s.left, s.right)) = [(.var 101, .const 1)] :=
  ⟨_, rfl, by decide +kernel⟩

/-- `v = 2; child.p = v[1]`: -/
def oneOfTwo : List S := [asn .top (.var 1) (.const 2) [1] [], asn .top (.var 102) (.sl (.var 1) 1 1) [102] [1]]

/-- **A design is refused**: two bits do not fit the port that reads one of them. -/
theorem slice_refused : mergeConst exCtx [1] oneOfTwo = .throw .var := by decide +kernel

theorem inverted_start : Start exCtx [2] inverted where
  listed := by decide
  left := by
    intro s hs v hm
    simp only [inverted, List.mem_cons, List.not_mem_nil, or_false] at hs
    rcases hs with rfl | rfl
    · left; cases mentions_var.1 hm; decide
    · left; cases mentions_var.1 hm; decide
  right := by
    intro s hs v hm
    simp only [inverted, List.mem_cons, List.not_mem_nil, or_false] at hs
    rcases hs with rfl | rfl
    · exact absurd hm mentions_const
    · cases mentions_var.1 (mentions_un.1 hm); decide
  reg := by
    intro s hs v
    simp only [inverted, List.mem_cons, List.not_mem_nil, or_false] at hs
    rcases hs with rfl | rfl
    · simp [asn, mentions_var]; exact fun h => h.symm
    · simp [asn, mentions_var, mentions_un]; exact ⟨fun h => h.symm, fun h => .inr h.symm⟩
  types := by
    intro s hs _
    simp only [inverted, List.mem_cons, List.not_mem_nil, or_false] at hs
    rcases hs with rfl | rfl <;> exact ⟨by decide, rfl⟩
  nodup := by decide
  vars := by decide

/-- Booleans, for the values of the counterexample. -/
def bits : Ops Bool where
  const k := k != 0
  param _ := false
  sl _ _ v := v
  ix a _ := a
  un _ v := !v
  bin _ a _ := a
  cat _ := false
  ext _ v := v
  dup _ v := v
  ite c a b := if c then a else b
  cast _ v := v
  call _ _ := false

/-- **The claim is false.** -/
theorem not_MergeClaim : ¬ MergeClaim := by
  intro h
  obtain ⟨ss', gone, h1, -, h3⟩ := h exCtx [2] inverted inverted_start
  obtain ⟨ss2, e1, -⟩ := inverted_wrong
  rw [e1] at h1
  cases h1
  obtain ⟨ρ, hρ, he⟩ := (h3 Bool bits (fun _ => True) (fun _ => true)).1
    ⟨fun x => if x = 2 then false else true, ⟨by
      intro s hs _ _
      simp only [inverted, List.mem_cons, List.not_mem_nil, or_false] at hs
      rcases hs with rfl | rfl <;> rfl, trivial⟩, fun x hx => if_neg (by simpa using hx)⟩
  have e2 : mergeConst exCtx [2] inverted = .ok ([⟨.top, .var 2, .const 0, [], [], true, false⟩,
    ⟨.top, .var 102, .un 0 (.var 2), [], [], true, false⟩, ⟨.top, .var 102, .const 0, [102], [], false, true⟩], [2]) := by
    decide +kernel
  rw [e2] at e1
  cases e1
  have := hρ.1 ⟨.top, .var 102, .const 0, [102], [], false, true⟩ (by simp) rfl rfl
  have h102 := he 102 (by decide)
  simp only [ev, bits] at this
  rw [h102] at this
  cases this

/-- `v = 2; child.p = v; initial w = 1; child.q = w` and a block. -/
def exStmts : List S := [asn .top (.var 1) (.const 2) [1] [], asn .top (.var 101) (.var 1) [101] [1],
  asn .init (.var 2) (.const 1) [2] [], asn .top (.var 102) (.var 2) [102] [2],
  asn .block (.var 3) (.un 0 (.var 4)) [3] [4]]

/-- The hypotheses of `merge_partial` are met by a design in which a variable is taken out. -/
example : Start exCtx [1, 2, 3, 4] exStmts ∧ (∀ v ∈ [1, 2, 3, 4], Taken exCtx v exStmts → Direct v exStmts) ∧
    Taken exCtx 1 exStmts := by
  refine ⟨⟨by decide, ?_, ?_, ?_, ?_, by decide, by decide⟩, ?_, ?_⟩
  · intro s hs v hm
    simp only [exStmts, List.mem_cons, List.not_mem_nil, or_false] at hs
    rcases hs with rfl | rfl | rfl | rfl | rfl <;> cases mentions_var.1 hm <;> left <;> decide
  · intro s hs v hm
    simp only [exStmts, List.mem_cons, List.not_mem_nil, or_false] at hs
    rcases hs with rfl | rfl | rfl | rfl | rfl
    · exact absurd hm mentions_const
    · cases mentions_var.1 hm; decide
    · exact absurd hm mentions_const
    · cases mentions_var.1 hm; decide
    · cases mentions_var.1 (mentions_un.1 hm); decide
  · intro s hs v
    simp only [exStmts, List.mem_cons, List.not_mem_nil, or_false] at hs
    rcases hs with rfl | rfl | rfl | rfl | rfl <;> simp [asn, mentions_var, mentions_un, eq_comm] <;> exact .inr
  · intro s hs hk
    simp only [exStmts, List.mem_cons, List.not_mem_nil, or_false] at hs
    rcases hs with rfl | rfl | rfl | rfl | rfl
    · exact absurd rfl (hk 2)
    · exact ⟨by decide, rfl⟩
    · exact ⟨by decide, rfl⟩
    · exact ⟨by decide, rfl⟩
    · exact ⟨by decide, rfl⟩
  · intro v hv hT
    simp only [List.mem_cons, List.not_mem_nil, or_false] at hv
    rcases hv with rfl | rfl | rfl | rfl
    · exact ⟨by decide +kernel, by decide +kernel⟩
    · obtain ⟨a, b, k, q, h1, h2, h3, -⟩ := hT
      have : exStmts.filter (fun s => decide (2 ∈ s.src)) = [asn .init (.var 2) (.const 1) [2] []] := by decide +kernel
      rw [this] at h1
      cases h1
      exact absurd rfl h3
    · obtain ⟨a, b, k, q, h1, h2, -⟩ := hT
      have : exStmts.filter (fun s => decide (3 ∈ s.snk)) = [] := by decide +kernel
      rw [this] at h2
      cases h2
    · obtain ⟨a, b, k, q, h1, h2, -⟩ := hT
      have : exStmts.filter (fun s => decide (4 ∈ s.src)) = [] := by decide +kernel
      rw [this] at h1
      cases h1
  · exact ⟨_, _, 2, 101, rfl, rfl, by decide, rfl, rfl, rfl⟩

end Kratos.MergeConst
