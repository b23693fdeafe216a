import Verif.Print.StmtText
import Verif.Pass.Kinds

/-!
# The text of the body of a module (property C113)

Models `Stream::operator<<(AssignStmt*)` (src/codegen.cc:28-101), `stmt_code` for assignments, blocks and delays
(src/codegen.cc:482-493, 501-624, 974-999), `block_label` (src/codegen.cc:1067-1072) and the loop over the statements of a generator
(src/codegen.cc:238-240) as lists of tokens; the statements inside of blocks are those of `Verif/Print/StmtText.lean`.

Simplified: comments (C71) and white space, including the breaking of long lines (C59), are left out; variables in sensitivity lists
are tokens; functions, instances, properties and raw text directly in the generator are one opaque token and a semicolon.  The test of
targets runs before the text of the block is made, so that only the kind of the exception depends on the order.
-/

namespace Kratos.Items

open Kratos.Ir Kratos.StmtText
open Kratos.Kinds (All2)

/-! ### Model -/

/-- `AssignmentType`. -/
inductive AType where
  | blocking | nonblocking | undefined
  deriving DecidableEq, Repr

/-- `EventControl` with an edge: `posedge` or `negedge` of a variable. -/
structure Event where
  neg : Bool
  v : VarId
  deriving DecidableEq, Repr

/-- The blocks a generator can hold (`StatementBlockType`); `general` is a combinational block with `is_general_purpose()`. -/
inductive Kind where
  | ff (ev : List Event) | comb | general | latch | initial | final
  deriving DecidableEq, Repr

/-- A statement directly in the generator. -/
inductive Item where
  | assign (t : AType) (delayed : Bool) (l : LVal) (r : Expr)
  | block (k : Kind) (label : Option Nat) (body : Stmts)
  | other (n : Nat)

/-- `EventControl::to_string` for edges, src/stmt.cc:122-125. -/
def edgeToks (e : Event) : List Tok := [if e.neg then .negedge_ else .posedge_, .id e.v]

/-- `string::join(…, ", ")`, src/codegen.cc:543-549. -/
def joinEdges : List Event → List Tok
  | [] => []
  | [e] => edgeToks e
  | e :: es => edgeToks e ++ .comma :: joinEdges es

/-- The keyword in front of `begin`, src/codegen.cc:550, 581-584, 595, 615, 974. -/
def keyword : Kind → List Tok
  | .ff ev => .always_ff :: .at_ :: .lp :: joinEdges ev ++ [.rp]
  | .comb => [.always_comb]
  | .general => [.always_]
  | .latch => [.always_latch]
  | .initial => [.initial_]
  | .final => [.final_]

/-- `block_label`, src/codegen.cc:1067-1072. -/
def labelToks : Option Nat → List Tok
  | some n => [.colon, .name n]
  | none => []

/-- `right()->type() == VarType::ConstValue`. -/
def isConst : Expr → Bool
  | .const _ _ => true
  | _ => false

/-- The test of src/codegen.cc:482-491: the target is itself an input port of the generator (`inp`) and the value is no constant. -/
def refused (inp : LVal → Bool) (l : LVal) (r : Expr) : Bool := inp l && !isConst r

mutual
/-- Some assignment in the statement fails the test. -/
def Stmt.refused (inp : LVal → Bool) : Stmt → Bool
  | .assign _ l r => Items.refused inp l r
  | .ite _ t e => Stmts.refused inp t || Stmts.refused inp e
  | .switch _ cs => Cases.refused inp cs
  | .for_ _ _ _ _ b => Stmts.refused inp b
  | _ => false
def Stmts.refused (inp : LVal → Bool) : Stmts → Bool
  | .nil => false
  | .cons s ss => Stmt.refused inp s || Stmts.refused inp ss
def Cases.refused (inp : LVal → Bool) : Cases → Bool
  | .nil => false
  | .cons _ b cs => Stmts.refused inp b || Cases.refused inp cs
end

/-- One statement of the generator. -/
def itemToks (inp : LVal → Bool) (u : Bool) : Item → Res (List Tok)
  | .assign t delayed l r =>
    if Items.refused inp l r then .throw .stmt
    else if t ≠ .blocking then .throw .stmt
    else if delayed then .throw .stmt
    else .ok [.assign_, .target l, .eq, .expr r, .semi]
  | .block k label body =>
    if Stmts.refused inp body then .throw .stmt
    else (Stmts.code u body).map fun ts => keyword k ++ .begin_ :: labelToks label ++ ts ++ .end_ :: labelToks label
  | .other n => .ok [.other n, .semi]

/-- The statements of the generator in order, src/codegen.cc:238-240. -/
def code (inp : LVal → Bool) (u : Bool) : List Item → Res (List Tok)
  | [] => .ok []
  | i :: is => (itemToks inp u i).bind fun a => (code inp u is).map fun b => a ++ b

/-! ### Specification: reading module items (IEEE 1800-2017 §9.2, §9.3.4, §9.4.2.1, §10.3) -/

/-- A continuous assignment, a process, or something else. -/
inductive VItem where
  | assign (l : LVal) (r : Expr)
  | process (k : Kind) (label : Option Nat) (body : Vs)
  | other (n : Nat)

def readLabel : List Tok → Option Nat × List Tok
  | .colon :: .name n :: r => (some n, r)
  | ts => (none, ts)

def readEdge : List Tok → Option (Event × List Tok)
  | .posedge_ :: .id v :: r => some (⟨false, v⟩, r)
  | .negedge_ :: .id v :: r => some (⟨true, v⟩, r)
  | _ => none

/-- At least one edge, separated by commas, up to the parenthesis. -/
def readEdges : Nat → List Tok → Option (List Event × List Tok)
  | 0, _ => none
  | n + 1, ts =>
    match readEdge ts with
    | some (e, .comma :: r) => (readEdges n r).map fun p => (e :: p.1, p.2)
    | some (e, .rp :: r) => some ([e], r)
    | _ => none

/-- `begin [: label] … end [: label]`; a label at the end must be the one at the beginning. -/
def readBlock (n : Nat) : List Tok → Option (Option Nat × Vs × List Tok)
  | .begin_ :: r =>
    (stmts n (readLabel r).2).bind fun p =>
      if (readLabel p.2).1 = none ∨ (readLabel p.2).1 = (readLabel r).1 then some ((readLabel r).1, p.1, (readLabel p.2).2) else none
  | _ => none

def process (n : Nat) (k : Kind) (ts : List Tok) : Option (VItem × List Tok) :=
  (readBlock n ts).map fun b => (.process k b.1 b.2.1, b.2.2)

def item (n : Nat) : List Tok → Option (VItem × List Tok)
  | .assign_ :: .target l :: .eq :: .expr e :: .semi :: r => some (.assign l e, r)
  | .always_ff :: .at_ :: .lp :: r => (readEdges n r).bind fun p => process n (.ff p.1) p.2
  | .always_comb :: r => process n .comb r
  | .always_ :: r => process n .general r
  | .always_latch :: r => process n .latch r
  | .initial_ :: r => process n .initial r
  | .final_ :: r => process n .final r
  | .other k :: .semi :: r => some (.other k, r)
  | _ => none

def items : Nat → List Tok → Option (List VItem)
  | _, [] => some []
  | 0, _ :: _ => none
  | n + 1, t :: ts => (item n (t :: ts)).bind fun p => (items n p.2).map fun q => p.1 :: q

/-- The text is read as these items, if the bound on the depth is large enough. -/
def ReadsAll (ts : List Tok) (vs : List VItem) : Prop := ∃ N, ∀ n, N ≤ n → items n ts = some vs

/-- The item read says what the statement of the generator said; `ι` interprets opaque statements. -/
def Means (ι : Nat → St → St) : Item → VItem → Prop
  | .assign t d l r, v => t = .blocking ∧ d = false ∧ v = .assign l r
  | .block k label body, v => ∃ vs, v = .process k label vs ∧ ∀ st, vs.Ends ι st (body.exec ι st)
  | .other n, v => v = .other n

/-- No assignment of the item targets an input port of the module. -/
def Clean (inp : VarId → Bool) : VItem → Prop
  | .assign l _ => inp l.v = false
  | _ => True

/-- Full claim (C113): whatever is printed reads back as the statements of the generator, and does not drive the module's own inputs. -/
def ItemClaim : Prop := ∀ (inp : LVal → Bool) (own : VarId → Bool) (u : Bool) (is : List Item) (ts : List Tok),
  (∀ l, inp l = true → own l.v = true) → code inp u is = .ok ts → ∃ vs, ReadsAll ts vs ∧ (∀ v ∈ vs, Clean own v) ∧ ∀ ι, All2 (Means ι) is vs

/-- Clocked blocks have a clock. -/
def Item.Clocked : Item → Prop
  | .block (.ff ev) _ _ => ev ≠ []
  | _ => True

/-- Blocks are good in the sense of C48, and opaque statements keep the variables of loops around them. -/
def Item.Good (ι : Nat → St → St) : Item → Prop
  | .block _ _ body => Stmts.Ok body ∧ ∀ iv, Stmts.loops iv body = true → ∀ n st, (ι n st).val iv = st.val iv
  | _ => True

/-! ### Proofs -/

def toItem : Item → VItem
  | .assign _ _ l r => .assign l r
  | .block k label body => .process k label (Stmts.toVs body)
  | .other n => .other n

theorem readEdge_toks (e : Event) (r : List Tok) : readEdge (edgeToks e ++ r) = some (e, r) := by
  obtain ⟨neg, v⟩ := e
  cases neg <;> rfl

theorem readEdges_toks : ∀ (es : List Event) (r : List Tok), es ≠ [] → ∀ n, es.length ≤ n → readEdges n (joinEdges es ++ .rp :: r) = some (es, r)
  | [], _, h, _, _ => absurd rfl h
  | [e], r, _, n + 1, _ => by
    show (match readEdge (edgeToks e ++ .rp :: r) with | some (e, .comma :: r) => _ | some (e, .rp :: r) => _ | _ => _) = _
    rw [readEdge_toks]
  | e :: f :: es, r, _, n + 1, hn => by
    have ih := readEdges_toks (f :: es) r (by simp) n (by simp at hn ⊢; omega)
    have h : joinEdges (e :: f :: es) ++ Tok.rp :: r = edgeToks e ++ .comma :: (joinEdges (f :: es) ++ .rp :: r) := by simp [joinEdges]
    rw [h]
    show (match readEdge (edgeToks e ++ .comma :: (joinEdges (f :: es) ++ .rp :: r)) with | some (e, .comma :: r) => _ | some (e, .rp :: r) => _ | _ => _) = _
    rw [readEdge_toks]
    dsimp only
    rw [ih]
    rfl

/-- Tokens that do not begin with a colon. -/
def NoColon (ts : List Tok) : Prop := ts.head? ≠ some .colon

theorem readLabel_toks (l : Option Nat) (r : List Tok) (h : NoColon r) : readLabel (labelToks l ++ r) = (l, r) := by
  cases l with
  | some n => rfl
  | none =>
    show readLabel r = (none, r)
    unfold readLabel
    split
    · exact absurd rfl h
    · rfl

theorem code_noColon (u : Bool) (ss : Stmts) (ts : List Tok) (h : Stmts.code u ss = .ok ts) (r : List Tok) : NoColon (ts ++ .end_ :: r) := by
  cases ss with
  | nil => cases h; exact (by decide : some Tok.end_ ≠ some Tok.colon)
  | cons s ss =>
    simp only [Stmts.code, Res.bind_eq_ok, map_ok] at h
    obtain ⟨a, ha, b, -, rfl⟩ := h
    obtain ⟨t, q, rfl, ht⟩ := code_starts u s a ha
    intro e
    have : t = .colon := by simpa [NoColon] using e
    subst this
    cases ht

theorem readBlock_toks (u : Bool) (label : Option Nat) (ss : Stmts) (ts : List Tok) (h : Stmts.code u ss = .ok ts) (rest : List Tok) (hr : NoColon rest) :
    ∃ N, ∀ n, N ≤ n → readBlock n (.begin_ :: labelToks label ++ ts ++ .end_ :: labelToks label ++ rest) = some (label, Stmts.toVs ss, rest) := by
  obtain ⟨N, hN⟩ := read_stmts u ss ts h (labelToks label ++ rest)
  refine ⟨N, fun n hn => ?_⟩
  have e : Tok.begin_ :: labelToks label ++ ts ++ .end_ :: labelToks label ++ rest =
      .begin_ :: (labelToks label ++ (ts ++ .end_ :: (labelToks label ++ rest))) := by simp
  rw [e]
  dsimp only [readBlock]
  rw [readLabel_toks label _ (code_noColon u ss ts h _)]
  dsimp only
  rw [hN n hn]
  show (if (readLabel (labelToks label ++ rest)).1 = none ∨ _ then _ else _) = _
  dsimp only
  rw [readLabel_toks label rest hr, if_pos (Or.inr rfl)]

theorem process_toks (u : Bool) (k : Kind) (label : Option Nat) (ss : Stmts) (ts : List Tok) (h : Stmts.code u ss = .ok ts) (rest : List Tok)
    (hr : NoColon rest) (hk : ∀ ev, k = .ff ev → ev ≠ []) :
    ∃ N, ∀ n, N ≤ n → item n (keyword k ++ .begin_ :: labelToks label ++ ts ++ .end_ :: labelToks label ++ rest) =
      some (.process k label (Stmts.toVs ss), rest) := by
  obtain ⟨N, hN⟩ := readBlock_toks u label ss ts h rest hr
  have hp : ∀ n, N ≤ n → ∀ k, process n k (.begin_ :: labelToks label ++ ts ++ .end_ :: labelToks label ++ rest) =
      some (.process k label (Stmts.toVs ss), rest) := by
    intro n hn k
    unfold process
    rw [hN n hn]
    rfl
  cases k with
  | ff ev =>
    refine ⟨N + ev.length, fun n hn => ?_⟩
    have e : keyword (.ff ev) ++ Tok.begin_ :: labelToks label ++ ts ++ .end_ :: labelToks label ++ rest =
        .always_ff :: .at_ :: .lp :: (joinEdges ev ++ .rp :: (.begin_ :: labelToks label ++ ts ++ .end_ :: labelToks label ++ rest)) := by
      simp [keyword]
    rw [e]
    show (readEdges n _).bind _ = _
    rw [readEdges_toks ev _ (hk ev rfl) n (by omega)]
    exact hp n (by omega) (.ff ev)
  | comb => exact ⟨N, fun n hn => hp n hn .comb⟩
  | general => exact ⟨N, fun n hn => hp n hn .general⟩
  | latch => exact ⟨N, fun n hn => hp n hn .latch⟩
  | initial => exact ⟨N, fun n hn => hp n hn .initial⟩
  | final => exact ⟨N, fun n hn => hp n hn .final⟩

theorem item_toks (inp : LVal → Bool) (u : Bool) (i : Item) (ts : List Tok) (h : itemToks inp u i = .ok ts) (hc : i.Clocked) :
    (∃ t r, ts = t :: r ∧ t ≠ .colon) ∧ ∀ rest, NoColon rest → ∃ N, ∀ n, N ≤ n → item n (ts ++ rest) = some (toItem i, rest) := by
  cases i with
  | assign t d l r =>
    dsimp only [itemToks] at h
    split at h
    · cases h
    · split at h
      · cases h
      · split at h
        · cases h
        · cases h
          exact ⟨⟨_, _, rfl, by decide⟩, fun rest _ => ⟨0, fun n _ => rfl⟩⟩
  | block k label body =>
    dsimp only [itemToks] at h
    split at h
    · cases h
    · rw [map_ok] at h
      obtain ⟨a, ha, rfl⟩ := h
      refine ⟨?_, fun rest hr => process_toks u k label body a ha rest hr ?_⟩
      · cases k <;> exact ⟨_, _, rfl, by decide⟩
      · rintro ev rfl
        exact hc
  | other n => cases h; exact ⟨⟨_, _, rfl, by simp⟩, fun rest _ => ⟨0, fun n _ => rfl⟩⟩

theorem items_toks (inp : LVal → Bool) (u : Bool) : ∀ (is : List Item) (ts : List Tok), code inp u is = .ok ts → (∀ i ∈ is, i.Clocked) →
    NoColon ts ∧ ReadsAll ts (is.map toItem)
  | [], ts, h, _ => by
    cases h
    exact ⟨by simp [NoColon], 0, fun n _ => by cases n <;> rfl⟩
  | i :: is, ts, h, hc => by
    simp only [code, Res.bind_eq_ok, map_ok] at h
    obtain ⟨a, ha, b, hb, rfl⟩ := h
    obtain ⟨hcol, M, hM⟩ := items_toks inp u is b hb fun i hi => hc i (List.mem_cons_of_mem _ hi)
    obtain ⟨⟨t, r, rfl, ht⟩, hN⟩ := item_toks inp u i a ha (hc i List.mem_cons_self)
    obtain ⟨N, hN⟩ := hN b hcol
    refine ⟨by simpa [NoColon] using ht, N + M + 1, fun n hn => ?_⟩
    obtain ⟨m, rfl⟩ : ∃ m, n = m + 1 := ⟨n - 1, by omega⟩
    show (item m (t :: r ++ b)).bind _ = _
    rw [hN m (by omega)]
    show (items m b).map _ = _
    rw [hM m (by omega)]
    rfl

theorem reads_unique {ts : List Tok} {vs vs' : List VItem} (h : ReadsAll ts vs) (h' : ReadsAll ts vs') : vs = vs' := by
  obtain ⟨N, h⟩ := h
  obtain ⟨M, h'⟩ := h'
  have e := (h (N + M) (by omega)).symm.trans (h' (N + M) (by omega))
  cases e
  rfl

theorem means_toItem {inp : LVal → Bool} {u : Bool} {ι : Nat → St → St} {i : Item} {ts : List Tok} (h : itemToks inp u i = .ok ts) (hg : i.Good ι) :
    Means ι i (toItem i) := by
  cases i with
  | assign t d l r =>
    dsimp only [itemToks] at h
    split at h
    · cases h
    · split at h
      · cases h
      · next ht =>
        split at h
        · cases h
        · next hd => exact ⟨Classical.not_not.1 ht, by simpa using hd, rfl⟩
  | block k label body => exact ⟨_, rfl, fun st => ends_stmts body hg.1 hg.2 st⟩
  | other n => rfl

/-- C113, partial: the text of the body of a module is read as the statements of the generator, one for one and in order: continuous
assignments with their target and value, processes of the same kind with the same sensitivity list and label whose statements do the same in
every state.  Missing, because false: clocked blocks without a clock (`no_clock`), slices of the module's own inputs as targets
(`input_slice`), and the loops excluded in C48. -/
theorem items_text_partial (inp : LVal → Bool) (u : Bool) (is : List Item) (ts : List Tok) (h : code inp u is = .ok ts) (hc : ∀ i ∈ is, i.Clocked) :
    ∃ vs, ReadsAll ts vs ∧ ∀ ι, (∀ i ∈ is, i.Good ι) → All2 (Means ι) is vs := by
  refine ⟨is.map toItem, (items_toks inp u is ts h hc).2, fun ι hg => ?_⟩
  clear hc
  induction is generalizing ts with
  | nil => exact .nil
  | cons i is ih =>
    simp only [code, Res.bind_eq_ok, map_ok] at h
    obtain ⟨a, ha, b, hb, rfl⟩ := h
    exact .cons (means_toItem ha (hg i List.mem_cons_self)) (ih b hb fun i hi => hg i (List.mem_cons_of_mem _ hi))

mutual
/-- The assignments in a statement. -/
def Stmt.writes : Stmt → List (LVal × Expr)
  | .assign _ l r => [(l, r)]
  | .ite _ t e => Stmts.writes t ++ Stmts.writes e
  | .switch _ cs => Cases.writes cs
  | .for_ _ _ _ _ b => Stmts.writes b
  | _ => []
def Stmts.writes : Stmts → List (LVal × Expr)
  | .nil => []
  | .cons s ss => Stmt.writes s ++ Stmts.writes ss
def Cases.writes : Cases → List (LVal × Expr)
  | .nil => []
  | .cons _ b cs => Stmts.writes b ++ Cases.writes cs
end

/-- The assignment does not target an input port, or it assigns a constant. -/
def Allowed (inp : LVal → Bool) (l : LVal) (r : Expr) : Prop := inp l = true → ∃ w x, r = .const w x

/-- What can be printed. -/
def Item.Printable (inp : LVal → Bool) : Item → Prop
  | .assign t d l r => t = .blocking ∧ d = false ∧ Allowed inp l r
  | .block _ _ body => (∀ p ∈ Stmts.writes body, Allowed inp p.1 p.2) ∧ Stmts.full body = true
  | .other _ => True

theorem allowed_iff (inp : LVal → Bool) (l : LVal) (r : Expr) : Items.refused inp l r = false ↔ Allowed inp l r := by
  unfold Items.refused Allowed
  cases inp l <;> cases r <;> simp [isConst]

mutual
theorem refused_stmt (inp : LVal → Bool) : ∀ s : Stmt, Stmt.refused inp s = false ↔ ∀ p ∈ Stmt.writes s, Allowed inp p.1 p.2
  | .assign _ l r => by
    rw [Stmt.refused, Stmt.writes, allowed_iff]
    simp
  | .ite _ t e => by
    rw [Stmt.refused, Stmt.writes, Bool.or_eq_false_iff, refused_stmts inp t, refused_stmts inp e, List.forall_mem_append]
  | .switch _ cs => refused_cases inp cs
  | .for_ _ _ _ _ b => refused_stmts inp b
  | .ret _ => by simp [Stmt.refused, Stmt.writes]
  | .brk => by simp [Stmt.refused, Stmt.writes]
  | .other _ => by simp [Stmt.refused, Stmt.writes]
theorem refused_stmts (inp : LVal → Bool) : ∀ ss : Stmts, Stmts.refused inp ss = false ↔ ∀ p ∈ Stmts.writes ss, Allowed inp p.1 p.2
  | .nil => by simp [Stmts.refused, Stmts.writes]
  | .cons s ss => by
    rw [Stmts.refused, Stmts.writes, Bool.or_eq_false_iff, refused_stmt inp s, refused_stmts inp ss, List.forall_mem_append]
theorem refused_cases (inp : LVal → Bool) : ∀ cs : Cases, Cases.refused inp cs = false ↔ ∀ p ∈ Cases.writes cs, Allowed inp p.1 p.2
  | .nil => by simp [Cases.refused, Cases.writes]
  | .cons _ b cs => by
    rw [Cases.refused, Cases.writes, Bool.or_eq_false_iff, refused_stmts inp b, refused_cases inp cs, List.forall_mem_append]
end

theorem item_printed (inp : LVal → Bool) (u : Bool) (i : Item) : (∃ ts, itemToks inp u i = .ok ts) ↔ i.Printable inp := by
  cases i with
  | assign t d l r =>
    show (∃ ts, (if Items.refused inp l r = true then _ else _) = _) ↔ t = .blocking ∧ d = false ∧ Allowed inp l r
    rw [← allowed_iff]
    by_cases hb : Items.refused inp l r = true
    · rw [if_pos hb, hb]
      simp
    · rw [if_neg hb, Bool.eq_false_iff.2 hb]
      cases t <;> cases d <;> simp
  | block k label body =>
    show (∃ ts, (if Stmts.refused inp body = true then _ else _) = _) ↔ (∀ p ∈ Stmts.writes body, Allowed inp p.1 p.2) ∧ Stmts.full body = true
    rw [← refused_stmts]
    by_cases hb : Stmts.refused inp body = true
    · rw [if_pos hb, hb]
      simp
    · rw [if_neg hb, Bool.eq_false_iff.2 hb]
      have hp := prints_stmts u body
      unfold Prints at hp
      split at hp
      · next hf =>
        obtain ⟨a, ha⟩ := hp
        rw [ha, hf]
        simp [Res.map]
      · next hf =>
        rw [hp]
        simp only [Res.map, true_and]
        exact ⟨fun ⟨_, h⟩ => (nomatch h), fun h => absurd h hf⟩
  | other n => exact ⟨fun _ => trivial, fun _ => ⟨_, rfl⟩⟩

/-- Exactly the bodies in which every continuous assignment is blocking and without delay, every case label has statements, and no
assignment of a value that is no constant has an input port of the module itself as its target, are printed. -/
theorem printed_iff (inp : LVal → Bool) (u : Bool) : ∀ is : List Item, (∃ ts, code inp u is = .ok ts) ↔ ∀ i ∈ is, i.Printable inp
  | [] => ⟨fun _ _ h => (nomatch h), fun _ => ⟨_, rfl⟩⟩
  | i :: is => by
    have h1 := item_printed inp u i
    have h2 := printed_iff inp u is
    rw [List.forall_mem_cons, ← h1, ← h2]
    simp only [code, Res.bind_eq_ok, map_ok]
    constructor
    · rintro ⟨_, a, ha, b, hb, _⟩
      exact ⟨⟨a, ha⟩, b, hb⟩
    · rintro ⟨⟨a, ha⟩, b, hb⟩
      exact ⟨_, a, ha, b, hb, rfl⟩

/-- No printed continuous assignment of a value that is no constant targets an input port itself. -/
theorem inputs_kept (inp : LVal → Bool) (u : Bool) (is : List Item) (ts : List Tok) (h : code inp u is = .ok ts) (vs : List VItem)
    (hc : ∀ i ∈ is, i.Clocked) (hv : ReadsAll ts vs) (l : LVal) (r : Expr) (hm : VItem.assign l r ∈ vs) : inp l = true → ∃ w x, r = .const w x := by
  have e := reads_unique hv (items_toks inp u is ts h hc).2
  subst e
  obtain ⟨i, hi, e⟩ := List.mem_map.1 hm
  have hp := (printed_iff inp u is).1 ⟨ts, h⟩ i hi
  cases i with
  | assign t d l' r' =>
    cases e
    exact hp.2.2
  | block k la b => cases e
  | other n => cases e

/-! ### Delays -/

/-- `EventControl`: `#n` or an edge. -/
inductive Ctl where
  | delay (n : Nat)
  | edge (e : Event)
  deriving DecidableEq, Repr

/-- `output_delay`, src/codegen.cc:67-77, and src/codegen.cc:984-995. -/
def ctlToks : Ctl → List Tok
  | .delay n => [.hash n]
  | .edge e => .at_ :: .lp :: edgeToks e ++ [.rp]

/-- An assignment in a block, with a delay before it or in front of its value (`DelaySide`), or a delay alone (`EventDelayStmt`). -/
inductive Timed where
  | assign (t : AType) (delay : Option (Bool × Ctl)) (l : LVal) (r : Expr)
  | wait (c : Ctl)
  deriving DecidableEq, Repr

/-- src/codegen.cc:53-98 (`true`: on the left), 976-998. -/
def timedToks : Timed → Res (List Tok)
  | .assign t d l r =>
    match t with
    | .undefined => .throw .stmt
    | _ => .ok ((match d with | some (true, c) => ctlToks c | _ => []) ++ [.target l, if t = .blocking then .eq else .leq] ++
        (match d with | some (false, c) => ctlToks c | _ => []) ++ [.expr r, .semi])
  | .wait c => .ok (ctlToks c ++ [.semi])

/-- What a simulator does at a timing control and an assignment (§9.4, §9.4.5): wait and then take the value, or take the value and assign
it later. -/
inductive Act where
  | wait (c : Ctl)
  | sample (r : Expr)
  | store (nb : Bool) (l : LVal)
  deriving DecidableEq, Repr

def readCtl : List Tok → Option (Ctl × List Tok)
  | .hash n :: r => some (.delay n, r)
  | .at_ :: .lp :: r => match readEdge r with
    | some (e, .rp :: r) => some (.edge e, r)
    | _ => none
  | _ => none

def readValue (nb : Bool) (l : LVal) (ts : List Tok) : Option (List Act × List Tok) :=
  match readCtl ts with
  | some (c, .expr e :: .semi :: r) => some ([.sample e, .wait c, .store nb l], r)
  | some _ => none
  | none => match ts with
    | .expr e :: .semi :: r => some ([.sample e, .store nb l], r)
    | _ => none

def readAssign : List Tok → Option (List Act × List Tok)
  | .target l :: .eq :: r => readValue false l r
  | .target l :: .leq :: r => readValue true l r
  | _ => none

/-- A procedural timing control in front of a statement or of `;`. -/
def readTimed (ts : List Tok) : Option (List Act × List Tok) :=
  match readCtl ts with
  | some (c, .semi :: r) => some ([.wait c], r)
  | some (c, r) => (readAssign r).map fun p => (.wait c :: p.1, p.2)
  | none => readAssign ts

/-- What the user asked for. -/
def Timed.acts : Timed → List Act
  | .wait c => [.wait c]
  | .assign t none l r => [.sample r, .store (t == .nonblocking) l]
  | .assign t (some (true, c)) l r => [.wait c, .sample r, .store (t == .nonblocking) l]
  | .assign t (some (false, c)) l r => [.sample r, .wait c, .store (t == .nonblocking) l]

theorem readCtl_toks (c : Ctl) (r : List Tok) : readCtl (ctlToks c ++ r) = some (c, r) := by
  cases c with
  | delay n => rfl
  | edge e =>
    show (match readEdge (edgeToks e ++ [.rp] ++ r) with | some (e, .rp :: r) => _ | _ => _) = _
    rw [List.append_assoc, readEdge_toks]
    rfl

/-- C113: delays are waited for where the user put them. -/
theorem timed_text (s : Timed) (ts rest : List Tok) (h : timedToks s = .ok ts) : readTimed (ts ++ rest) = some (s.acts, rest) := by
  cases s with
  | wait c =>
    cases h
    unfold readTimed
    rw [List.append_assoc, readCtl_toks]
    rfl
  | assign t d l r =>
    have hv : ∀ (nb : Bool) (c : Ctl), readValue nb l (ctlToks c ++ .expr r :: .semi :: rest) = some ([.sample r, .wait c, .store nb l], rest) := by
      intro nb c
      unfold readValue
      rw [readCtl_toks]
    cases t with
    | undefined => cases h
    | blocking =>
      rcases d with _ | ⟨_ | _, c⟩
      · cases h; rfl
      · cases h
        have := hv false c
        have e : (AType.blocking == AType.nonblocking) = false := rfl
        simpa [readTimed, readCtl, readAssign, Timed.acts, e] using this
      · cases h
        unfold readTimed
        simp only [List.append_assoc]
        rw [readCtl_toks]
        rfl
    | nonblocking =>
      rcases d with _ | ⟨_ | _, c⟩
      · cases h; rfl
      · cases h
        have := hv true c
        simpa [readTimed, readCtl, readAssign, Timed.acts] using this
      · cases h
        unfold readTimed
        simp only [List.append_assoc]
        rw [readCtl_toks]
        rfl

/-- Only assignments whose kind was never decided are refused. -/
theorem timed_printed (s : Timed) : (∃ ts, timedToks s = .ok ts) ↔ ∀ d l r, s ≠ .assign .undefined d l r := by
  cases s with
  | wait c => exact ⟨fun _ _ _ _ h => (nomatch h), fun _ => ⟨_, rfl⟩⟩
  | assign t d l r =>
    cases t with
    | undefined => exact ⟨fun ⟨_, h⟩ => (nomatch h), fun h => absurd rfl (h d l r)⟩
    | blocking => exact ⟨fun _ _ _ _ h => (nomatch h), fun _ => ⟨_, rfl⟩⟩
    | nonblocking => exact ⟨fun _ _ _ _ h => (nomatch h), fun _ => ⟨_, rfl⟩⟩

/-! ### Examples and witnesses -/

def a0 : LVal := ⟨0, 0, 1⟩
def a1 : LVal := ⟨1, 0, 4⟩

def body : List Item :=
  [.assign .blocking false a0 (.var 2 1),
   .block (.ff [⟨false, 7⟩, ⟨true, 8⟩]) (some 3) (.cons (.ite (.var 8 1) (.cons (.assign true a1 (.const 4 0)) .nil) .nil) .nil),
   .block .comb none .nil, .other 5]

example : code (fun _ => false) true body = .ok
    [.assign_, .target a0, .eq, .expr (.var 2 1), .semi,
     .always_ff, .at_, .lp, .posedge_, .id 7, .comma, .negedge_, .id 8, .rp, .begin_, .colon, .name 3,
     .if_, .lp, .expr (.var 8 1), .rp, .begin_, .target a1, .leq, .expr (.const 4 0), .semi, .end_, .end_, .colon, .name 3,
     .always_comb, .begin_, .end_, .other 5, .semi] := by rfl

example (ι : Nat → St → St) : (∀ i ∈ body, i.Clocked) ∧ ∀ i ∈ body, i.Good ι := by
  constructor
  · simp [body, Item.Clocked]
  · simp [body, Item.Good, Stmts.Ok, Stmt.Ok, Stmts.loops, Stmt.loops]

example : timedToks (.assign .blocking (some (false, .edge ⟨true, 7⟩)) a0 (.var 2 1)) =
    .ok [.target a0, .eq, .at_, .lp, .negedge_, .id 7, .rp, .expr (.var 2 1), .semi] := by rfl

/-- A clocked block without conditions is printed as `always_ff @() …`, which no reader accepts. -/
theorem no_clock : code (fun _ => false) true [.block (.ff []) none .nil] = .ok [.always_ff, .at_, .lp, .rp, .begin_, .end_] ∧
    ∀ vs, ¬ ReadsAll [.always_ff, .at_, .lp, .rp, .begin_, .end_] vs := by
  refine ⟨rfl, ?_⟩
  rintro vs ⟨N, h⟩
  have := h (N + 2) (by omega)
  simp [items, item, readEdges, readEdge] at this

/-- A slice of the module's own input port as a target is printed: only the port itself is looked for. -/
theorem input_slice : code (fun l => l == ⟨0, 0, 4⟩) true [.assign .blocking false ⟨0, 1, 1⟩ (.var 2 1)] =
      .ok [.assign_, .target ⟨0, 1, 1⟩, .eq, .expr (.var 2 1), .semi] ∧
    code (fun l => l == ⟨0, 0, 4⟩) true [.assign .blocking false ⟨0, 0, 4⟩ (.var 2 4)] = .throw .stmt := ⟨rfl, rfl⟩

theorem not_ItemClaim : ¬ ItemClaim := by
  intro h
  obtain ⟨vs, hv, -⟩ := h (fun _ => false) (fun _ => false) true _ _ (by simp) no_clock.1
  exact no_clock.2 vs hv

end Kratos.Items
