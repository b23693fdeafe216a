import Verif.Ir.Reads
import Verif.Ir.Lemmas

/-!
# Renaming the targets of assignments

`Stmt.renL g` replaces every assigned variable `v` by `g v` and leaves everything that is read alone:
this is what `Var::move_src_to` does to the statements of a generator.
-/

namespace Kratos.Ir

def LVal.ren (g : VarId → VarId) (l : LVal) : LVal := { l with v := g l.v }

mutual
/-- `stmt_set_left` on every assignment (src/expr.cc:1600-1613, called from 1620-1632). Slices of the variable
become the same slices of the new one (src/expr.cc:1487-1511). -/
def Stmt.renL (g : VarId → VarId) : Stmt → Stmt
  | .assign nb l r => .assign nb (l.ren g) r
  | .ite c t e => .ite c (t.renL g) (e.renL g)
  | .switch tgt cs => .switch tgt (cs.renL g)
  | .for_ iv a b s body => .for_ iv a b s (body.renL g)
  | .ret e => .ret e
  | .brk => .brk
  | .other n => .other n
def Stmts.renL (g : VarId → VarId) : Stmts → Stmts
  | .nil => .nil
  | .cons s ss => .cons (s.renL g) (ss.renL g)
def Cases.renL (g : VarId → VarId) : Cases → Cases
  | .nil => .nil
  | .cons k b cs => .cons k (b.renL g) (cs.renL g)
end

mutual
/-- Reads satisfy `R`, assigned variables satisfy `W`, loop variables both; no uninterpreted statement. -/
def Stmt.Within (R W : VarId → Prop) : Stmt → Prop
  | .assign _ l r => W l.v ∧ ∀ x, r.reads x = true → R x
  | .ite c t e => (∀ x, c.reads x = true → R x) ∧ t.Within R W ∧ e.Within R W
  | .switch tgt cs => (∀ x, tgt.reads x = true → R x) ∧ cs.Within R W
  | .for_ iv _ _ _ body => R iv ∧ body.Within R W
  | .ret e => ∀ x, e.reads x = true → R x
  | .brk => True
  | .other _ => False
def Stmts.Within (R W : VarId → Prop) : Stmts → Prop
  | .nil => True
  | .cons s ss => s.Within R W ∧ ss.Within R W
def Cases.Within (R W : VarId → Prop) : Cases → Prop
  | .nil => True
  | .cons _ b cs => b.Within R W ∧ cs.Within R W
end

/-- Two runs agree up to renaming: `V` are the variables that count, `τ` the values of the second run outside. -/
structure RenRel (V : VarId → Prop) (g : VarId → VarId) (τ : Store) (N N' : List (LVal × Nat)) (st st' : St) : Prop where
  val : ∀ v, V v → st'.val (g v) = st.val v
  frame : ∀ u, (∀ v, V v → g v ≠ u) → st'.val u = τ u
  ctl : st'.ctl = st.ctl
  nba : ∃ L, st.nba = N ++ L ∧ st'.nba = N' ++ L.map (fun p => (p.1.ren g, p.2)) ∧ ∀ p ∈ L, V p.1.v

theorem write_ren {V : VarId → Prop} {g : VarId → VarId} (hg : ∀ v w, V v → V w → g v = g w → v = w) {σ τ : Store} {l : LVal} {x : Nat} (hl : V l.v)
    (h : ∀ v, V v → τ (g v) = σ v) : ∀ v, V v → (τ.write (l.ren g) x) (g v) = (σ.write l x) v := by
  intro v hv
  unfold Store.write LVal.ren
  simp only
  by_cases e : v = l.v
  · subst e; simp [h _ hv]
  · rw [if_neg e, if_neg (fun h => e (hg v l.v hv hl h)), h v hv]

theorem write_frame {V : VarId → Prop} {g : VarId → VarId} {τ : Store} {l : LVal} {x u : Nat} (hl : V l.v) (hu : ∀ v, V v → g v ≠ u) :
    (τ.write (l.ren g) x) u = τ u := by
  apply Store.write_ne
  exact fun e => hu l.v hl e.symm

section
variable {V : VarId → Prop} {g : VarId → VarId} (hg : ∀ v w, V v → V w → g v = g w → v = w) (ι : Nat → St → St)
  (τ : Store) (N N' : List (LVal × Nat))

theorem RenRel.eval {st st' : St} {τ : Store} {N N'} (h : RenRel V g τ N N' st st') {e : Expr} (he : ∀ x, e.reads x = true → V x ∧ g x = x) :
    e.eval st'.val = e.eval st.val := by
  apply Expr.eval_congr
  intro x hx
  have := h.val x (he x hx).1
  rwa [(he x hx).2] at this

theorem RenRel.guard {st st' a b : St} (h : RenRel V g τ N N' st st') (h1 : st.ctl = .run → RenRel V g τ N N' a b) :
    RenRel V g τ N N' (guardRun st a) (guardRun st' b) := by
  unfold guardRun
  rw [h.ctl]
  split
  · rename_i e; exact h1 e
  · exact h

include hg in
theorem RenRel.setIter {st st' : St} (h : RenRel V g τ N N' st st') {iv : VarId} (hi : V iv ∧ g iv = iv) (i : Int) :
    RenRel V g τ N N' (setIter iv i st) (setIter iv i st') := by
  refine ⟨fun v hv => ?_, fun u hu => ?_, h.ctl, h.nba⟩
  · show (if g v = iv then _ else _) = (if v = iv then _ else _)
    by_cases e : v = iv
    · subst e; simp [hi.2]
    · rw [if_neg e, if_neg (fun h => e (hg v iv hv hi.1 (h.trans hi.2.symm))), h.val v hv]
  · show (if u = iv then _ else _) = _
    rw [if_neg (fun e => hu iv hi.1 (hi.2.trans e.symm)), h.frame u hu]

include hg in
theorem RenRel.endLoop {st0 st0' st st' : St} (h0 : RenRel V g τ N N' st0 st0') (h : RenRel V g τ N N' st st') {iv : VarId} (hi : V iv ∧ g iv = iv) :
    RenRel V g τ N N' (endLoop iv st0 st) (endLoop iv st0' st') := by
  refine ⟨fun v hv => ?_, fun u hu => ?_, ?_, h.nba⟩
  · show (if g v = iv then _ else _) = (if v = iv then _ else _)
    by_cases e : v = iv
    · subst e
      have := h0.val v hv
      rw [hi.2] at this
      simp [hi.2, this]
    · rw [if_neg e, if_neg (fun h => e (hg v iv hv hi.1 (h.trans hi.2.symm))), h.val v hv]
  · show (if u = iv then _ else _) = _
    rw [if_neg (fun e => hu iv hi.1 (hi.2.trans e.symm)), h.frame u hu]
  · show (if st'.ctl = .brk then _ else _) = (if st.ctl = .brk then _ else _)
    rw [h.ctl]

include hg in
theorem RenRel.loop {iv : VarId} (hi : V iv ∧ g iv = iv) {f f' : St → St} (hf : ∀ st st', RenRel V g τ N N' st st' → RenRel V g τ N N' (f st) (f' st')) :
    ∀ (is : List Int) (st st' : St), RenRel V g τ N N' st st' →
      RenRel V g τ N N' (is.foldl (fun st i => guardRun st (f (Ir.setIter iv i st))) st) (is.foldl (fun st i => guardRun st (f' (Ir.setIter iv i st))) st')
  | [], _, _, h => h
  | i :: is, st, st', h => RenRel.loop hi hf is _ _ (h.guard τ N N' fun _ => hf _ _ (h.setIter hg τ N N' hi i))

include hg in
mutual
theorem Stmt.exec_renL : ∀ (s : Stmt) (st st' : St), s.Within (fun x => V x ∧ g x = x) V → RenRel V g τ N N' st st' →
    RenRel V g τ N N' (s.exec ι st) ((s.renL g).exec ι st')
  | .assign nb l r, st, st', hw, h => by
    simp only [Stmt.renL, Stmt.exec]
    refine h.guard τ N N' fun _ => ?_
    have he := h.eval (e := r) hw.2
    cases nb
    · refine ⟨?_, fun u hu => ?_, h.ctl, h.nba⟩
      · simp only [Bool.false_eq_true, if_false]
        rw [he]
        exact write_ren hg hw.1 h.val
      · simp only [Bool.false_eq_true, if_false]
        rw [write_frame hw.1 hu, h.frame u hu]
    · refine ⟨h.val, h.frame, h.ctl, ?_⟩
      obtain ⟨L, h1, h2, h3⟩ := h.nba
      refine ⟨L ++ [(l, r.eval st.val)], ?_, ?_, ?_⟩
      · simp [h1]
      · simp [h2, he]
      · intro p hp
        rcases List.mem_append.1 hp with hp | hp
        · exact h3 p hp
        · rw [List.mem_singleton] at hp; subst hp; exact hw.1
  | .ite c t e, st, st', hw, h => by
    simp only [Stmt.renL, Stmt.exec]
    refine h.guard τ N N' fun _ => ?_
    rw [h.eval (e := c) hw.1]
    split
    · exact Stmts.exec_renL t st st' hw.2.1 h
    · exact Stmts.exec_renL e st st' hw.2.2 h
  | .switch tgt cs, st, st', hw, h => by
    simp only [Stmt.renL, Stmt.exec]
    refine h.guard τ N N' fun _ => ?_
    rw [h.eval (e := tgt) hw.1]
    exact Cases.exec_renL cs _ _ id id (fun _ _ h => h) st st' hw.2 h
  | .for_ iv a b s body, st, st', hw, h => by
    simp only [Stmt.renL, Stmt.exec]
    refine h.guard τ N N' fun _ => ?_
    exact RenRel.endLoop hg τ N N' h (RenRel.loop hg τ N N' hw.1 (fun x y => Stmts.exec_renL body x y hw.2) _ st st' h) hw.1
  | .ret e, st, st', hw, h => by
    simp only [Stmt.renL, Stmt.exec]
    refine h.guard τ N N' fun _ => ⟨h.val, h.frame, ?_, h.nba⟩
    simp only [h.eval (e := e) hw]
  | .brk, st, st', _, h => by
    simp only [Stmt.renL, Stmt.exec]
    exact h.guard τ N N' fun _ => ⟨h.val, h.frame, rfl, h.nba⟩
  | .other _, _, _, hw, _ => hw.elim
theorem Stmts.exec_renL : ∀ (s : Stmts) (st st' : St), s.Within (fun x => V x ∧ g x = x) V → RenRel V g τ N N' st st' →
    RenRel V g τ N N' (s.exec ι st) ((s.renL g).exec ι st')
  | .nil, _, _, _, h => by simpa only [Stmts.renL, Stmts.exec] using h
  | .cons s ss, st, st', hw, h => by
    simp only [Stmts.renL, Stmts.exec]
    exact Stmts.exec_renL ss _ _ hw.2 (Stmt.exec_renL s st st' hw.1 h)
theorem Cases.exec_renL : ∀ (cs : Cases) (w v : Nat) (k k' : St → St), (∀ st st', RenRel V g τ N N' st st' → RenRel V g τ N N' (k st) (k' st')) →
    ∀ (st st' : St), cs.Within (fun x => V x ∧ g x = x) V → RenRel V g τ N N' st st' →
    RenRel V g τ N N' (cs.exec ι w v k st) ((cs.renL g).exec ι w v k' st')
  | .nil, _, _, _, _, hk, st, st', _, h => by simpa only [Cases.renL, Cases.exec] using hk st st' h
  | .cons none b cs, w, v, k, k', hk, st, st', hw, h => by
    simp only [Cases.renL, Cases.exec]
    exact Cases.exec_renL cs w v _ _ (fun x y => Stmts.exec_renL b x y hw.1) st st' hw.2 h
  | .cons (some c) b cs, w, v, k, k', hk, st, st', hw, h => by
    simp only [Cases.renL, Cases.exec]
    split
    · exact Stmts.exec_renL b st st' hw.1 h
    · exact Cases.exec_renL cs w v k k' hk st st' hw.2 h
end

include hg in
/-- Pending updates applied to related stores. -/
theorem commit_ren : ∀ (L : List (LVal × Nat)) (σ ρ : Store), (∀ p ∈ L, V p.1.v) → (∀ v, V v → ρ (g v) = σ v) →
    (∀ v, V v → ((L.map (fun p => (p.1.ren g, p.2))).foldl (fun σ p => σ.write p.1 p.2) ρ) (g v) = (L.foldl (fun σ p => σ.write p.1 p.2) σ) v) ∧
    ∀ u, (∀ v, V v → g v ≠ u) → ((L.map (fun p => (p.1.ren g, p.2))).foldl (fun σ p => σ.write p.1 p.2) ρ) u = ρ u
  | [], _, _, _, h => ⟨h, fun _ _ => rfl⟩
  | p :: L, σ, ρ, hV, h => by
    have hp := hV p (List.mem_cons_self ..)
    obtain ⟨h1, h2⟩ := commit_ren L (σ.write p.1 p.2) (ρ.write (p.1.ren g) p.2) (fun q hq => hV q (List.mem_cons_of_mem _ hq)) (write_ren hg hp h)
    exact ⟨h1, fun u hu => (h2 u hu).trans (write_frame hp hu)⟩
end

end Kratos.Ir
