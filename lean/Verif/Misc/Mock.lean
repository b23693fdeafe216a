import Verif.Base
import Verif.Text.Tokens

/-!
# C118: hierarchies made up for a top generator

Model of `mock_hierarchy` (src/debug.cc:138-164): a generator whose instance name is a dotted path gets parents, so that its full name is that
path.

Generators are numbers; of a generator only its instance name, parent and children are modelled, of the context only the sets of generators by
name (src/context.cc:14-18, 94-102).  Generate loops are not modelled: nothing here instantiates.
-/

namespace Kratos.Mock
open Kratos.Text

/-! ## Model -/

/-- A generator. -/
structure Gen where
  inst : Str
  parent : Option Nat := none
  kids : List (Str × Nat) := []
  deriving DecidableEq, Repr

/-- The context: generators in use are those below `next`; the set of a name is listed in the order of the set, which is that of addresses; a
name whose generators were removed keeps an empty set (src/context.cc:36-45). -/
structure Ctx where
  next : Nat
  gen : Nat → Gen
  mods : Str → Option (List Nat)

/-- Changing one generator. -/
def Ctx.set (c : Ctx) (g : Nat) (x : Gen) : Ctx := { c with gen := fun h => if h = g then x else c.gen h }

/-- `Context::generator` for a name not in use (src/context.cc:14-18); the instance name is the name (src/generator.cc:67-68). -/
def create (c : Ctx) (n : Str) : Ctx :=
  { next := c.next + 1, gen := fun h => if h = c.next then { inst := n } else c.gen h,
    mods := fun m => if m = n then some [c.next] else c.mods m }

/-- `Generator::add_child_generator` (src/generator.cc:404-416). -/
def addChild (c : Ctx) (g : Nat) (n : Str) (ch : Nat) : Res Ctx :=
  let c := c.set ch { c.gen ch with inst := n }
  if ((c.gen g).kids.map (·.1)).contains n then .throw .generator
  else
    let c := c.set g { c.gen g with kids := (c.gen g).kids ++ [(n, ch)] }
    .ok (c.set ch { c.gen ch with parent := some g })

/-- src/debug.cc:155-160; the first generator of an empty set is undefined behaviour. -/
def pick (c : Ctx) (n : Str) : Res (Ctx × Nat) :=
  match c.mods n with
  | none => .ok (create c n, c.next)
  | some [] => .ub
  | some (g :: _) => .ok (c, g)

/-- The loop, src/debug.cc:151-163: the names from the innermost to the outermost, the last of which is replaced. -/
def loop (topName : Str) : Ctx → Nat → List Str → Res Ctx
  | c, _, [] => .ok c
  | c, pre, n :: rest =>
    (pick c (if rest.isEmpty && !topName.isEmpty then topName else n)).bind fun p =>
      (addChild p.1 p.2 (p.1.gen pre).inst pre).bind fun c => loop topName c p.2 rest

/-- `mock_hierarchy` (src/debug.cc:138-164). -/
def mock (c : Ctx) (top : Nat) (topName : Str) : Res Ctx :=
  if !(c.gen top).inst.contains '.' then .ok c
  else
    let names := getTokens (c.gen top).inst ['.']
    if names.length < 2 then .throw .user
    else loop topName (c.set top { c.gen top with inst := names.getLast?.getD [] }) top names.dropLast.reverse

/-! ## Specification -/

/-- The full name of a generator, outermost instance first; a generator that is its own ancestor has none (`handle_name` does not end). -/
inductive Handle (c : Ctx) : Nat → List Str → Prop where
  | root {g : Nat} : (c.gen g).parent = none → Handle c g [(c.gen g).inst]
  | child {g p : Nat} {l : List Str} : (c.gen g).parent = some p → Handle c p l → Handle c g (l ++ [(c.gen g).inst])

/-- The generator found by following instance names downwards. -/
inductive Down (c : Ctx) : Nat → List Str → Nat → Prop where
  | here {g : Nat} : Down c g [] g
  | step {g h k : Nat} {n : Str} {l : List Str} : (n, h) ∈ (c.gen g).kids → Down c h l k → Down c g (n :: l) k

/-- The outermost name is replaced if another one is given. -/
def Used (topName : Str) : List Str → List Str
  | [] => []
  | n :: ns => (if topName = [] then n else topName) :: ns

/-- Names an instance can have. -/
def Plain (n : Str) : Prop := n ≠ [] ∧ '.' ∉ n

/-- The call made the hierarchy. -/
def Made (c c' : Ctx) (top : Nat) (path : List Str) : Prop :=
  Handle c' top path ∧ (∃ r, (c'.gen r).parent = none ∧ Down c' r path.tail top) ∧ (c'.gen top).kids = (c.gen top).kids ∧
  ∀ g, g < c.next → g ≠ top → c'.gen g = c.gen g

/-- C118 in full: a top generator with a dotted instance name gets this path as its full name, whatever else is in the context. -/
def MockClaim : Prop :=
  ∀ (c : Ctx) (top : Nat) (topName : Str) (ns : List Str) (last : Str), top < c.next → (c.gen top).parent = none → ns ≠ [] →
    (∀ n ∈ ns ++ [last], Plain n) → (c.gen top).inst = join ['.'] (ns ++ [last]) →
    ∃ c', mock c top topName = .ok c' ∧ Handle c' top (Used topName ns ++ [last])

/-! ## Proof -/

theorem Down.snoc {c : Ctx} {g h k : Nat} {l : List Str} {n : Str} (hd : Down c g l h) (hk : (n, k) ∈ (c.gen h).kids) : Down c g (l ++ [n]) k := by
  induction hd with
  | here => exact .step hk .here
  | step hm _ ih => exact .step hm (ih hk)

theorem used_snoc (tn : Str) : ∀ (l : List Str) (n : Str), Used tn (l ++ [n]) = Used tn l ++ [if l.isEmpty && !tn.isEmpty then tn else n]
  | [], n => by
    cases tn <;> simp [Used]
  | m :: l, n => by simp [Used]

/-- The context behind the first iteration. -/
def after (c : Ctx) (pre : Nat) (nm : Str) : Ctx where
  next := c.next + 1
  gen := fun h =>
    if h = pre then { c.gen pre with parent := some c.next }
    else if h = c.next then { inst := nm, kids := [((c.gen pre).inst, pre)] } else c.gen h
  mods := fun m => if m = nm then some [c.next] else c.mods m

theorem loop_made (tn : Str) : ∀ (rev : List Str) (c : Ctx) (pre : Nat), pre < c.next → (c.gen pre).parent = none →
    (Used tn rev.reverse).Nodup → (∀ n ∈ Used tn rev.reverse, c.mods n = none) →
    ∃ c', loop tn c pre rev = .ok c' ∧ Handle c' pre (Used tn rev.reverse ++ [(c.gen pre).inst]) ∧
      (∃ r, (c'.gen r).parent = none ∧ Down c' r (Used tn rev.reverse ++ [(c.gen pre).inst]).tail pre) ∧
      (c'.gen pre).inst = (c.gen pre).inst ∧ (c'.gen pre).kids = (c.gen pre).kids ∧
      ∀ g, g < c.next → g ≠ pre → c'.gen g = c.gen g
  | [], c, pre, _, hr, _, _ => ⟨c, rfl, Handle.root hr, ⟨pre, hr, .here⟩, rfl, rfl, fun _ _ _ => rfl⟩
  | n :: rest, c, pre, hp, hr, hn, hm => by
    rw [List.reverse_cons, used_snoc, List.isEmpty_reverse] at hn hm
    rw [List.reverse_cons, used_snoc, List.isEmpty_reverse]
    generalize hnm : (if rest.isEmpty && !tn.isEmpty then tn else n) = nm at hn hm
    obtain ⟨hn1, _, hn2⟩ := List.nodup_append.1 hn
    have hfree : c.mods nm = none := hm nm (List.mem_append_right _ List.mem_cons_self)
    have hne : pre ≠ c.next := Nat.ne_of_lt hp
    have hne' : c.next ≠ pre := fun h => hne h.symm
    -- the state behind the first iteration
    have hc2 : ∃ c2, c2 = after c pre nm := ⟨_, rfl⟩
    obtain ⟨c2, hc2⟩ := hc2
    have hadd : addChild (create c nm) c.next ((create c nm).gen pre).inst pre = .ok c2 := by
      have e1 : (create c nm).gen pre = c.gen pre := by simp [create, hne]
      unfold addChild
      simp only [Ctx.set, e1, create, hne', if_false, if_true, hne, List.map_nil, List.contains_nil, Bool.false_eq_true, List.nil_append]
      congr 1
      simp only [hc2, after]
      congr 1
      funext h
      by_cases h1 : h = pre
      · subst h1
        simp
      · by_cases h2 : h = c.next
        · subst h2
          simp [h1]
        · simp [h1, h2]
    have hgp : c2.gen pre = { c.gen pre with parent := some c.next } := by simp [hc2, after]
    have hgn : c2.gen c.next = { inst := nm, kids := [((c.gen pre).inst, pre)] } := by simp [hc2, after, hne']
    obtain ⟨c', hc, hh, ⟨r, hr1, hr2⟩, hi, hk, hf⟩ := loop_made tn rest c2 c.next (by rw [hc2]; exact Nat.lt_succ_self _) (by rw [hgn]) hn1
      (by
        intro m hmm
        have h1 : m ≠ nm := hn2 m hmm nm List.mem_cons_self
        rw [hc2]
        show (if m = nm then _ else _) = none
        rw [if_neg h1]
        exact hm m (List.mem_append_left _ hmm))
    rw [hgn] at hh hr2 hi hk
    have hpre : c'.gen pre = { c.gen pre with parent := some c.next } := by
      rw [hf pre (by rw [hc2]; exact Nat.lt_succ_of_lt hp) hne, hgp]
    refine ⟨c', ?_, ?_, ⟨r, hr1, ?_⟩, by rw [hpre], by rw [hpre], ?_⟩
    · show (pick c (if rest.isEmpty && !tn.isEmpty then tn else n)).bind _ = _
      rw [hnm]
      simp only [pick, hfree, Res.ok_bind]
      rw [hadd]
      exact hc
    · have : Handle c' pre ((Used tn rest.reverse ++ [nm]) ++ [(c'.gen pre).inst]) := Handle.child (by rw [hpre]) hh
      rw [hpre] at this
      exact this
    · have hd := hr2.snoc (n := (c.gen pre).inst) (k := pre) (by rw [hk]; exact List.mem_cons_self)
      rw [List.tail_append_of_ne_nil (by simp)]
      exact hd
    · intro g hg hgn'
      rw [hf g (by rw [hc2]; exact Nat.lt_succ_of_lt hg) (Nat.ne_of_lt hg), hc2]
      show (if g = pre then _ else if g = c.next then _ else _) = _
      rw [if_neg hgn', if_neg (Nat.ne_of_lt hg)]

theorem loop_step (tn : Str) (c : Ctx) (pre : Nat) (n : Str) (rest : List Str) (nm : Str)
    (hnm : (if rest.isEmpty && !tn.isEmpty then tn else n) = nm) (hfree : c.mods nm = none) (hne : pre ≠ c.next) :
    loop tn c pre (n :: rest) = loop tn (after c pre nm) c.next rest := by
  have hne' : c.next ≠ pre := fun h => hne h.symm
  have hadd : addChild (create c nm) c.next ((create c nm).gen pre).inst pre = .ok (after c pre nm) := by
    have e1 : (create c nm).gen pre = c.gen pre := by simp [create, hne]
    unfold addChild
    simp only [Ctx.set, e1, create, hne', if_false, if_true, hne, List.map_nil, List.contains_nil, Bool.false_eq_true, List.nil_append]
    congr 1
    simp only [after]
    congr 1
    funext h
    by_cases h1 : h = pre
    · subst h1
      simp
    · by_cases h2 : h = c.next
      · subst h2
        simp [h1]
      · simp [h1, h2]
  show (pick c (if rest.isEmpty && !tn.isEmpty then tn else n)).bind _ = _
  rw [hnm]
  simp only [pick, hfree, Res.ok_bind]
  rw [hadd]
  rfl

/-- The context behind the last iteration, if the generator exists. -/
def joined (c : Ctx) (pre g : Nat) : Ctx where
  next := c.next
  gen := fun h =>
    if h = pre then { inst := (c.gen pre).inst, parent := some g, kids := (c.gen pre).kids }
    else if h = g then { inst := (c.gen g).inst, parent := (c.gen g).parent, kids := (c.gen g).kids ++ [((c.gen pre).inst, pre)] } else c.gen h
  mods := c.mods

theorem loop_join (tn r nm : Str) (hnm : (if !tn.isEmpty then tn else r) = nm) (g : Nat) (gs : List Nat) :
    ∀ (ms : List Str) (c : Ctx) (pre : Nat), pre < c.next → (c.gen pre).parent = none → ms.Nodup → (∀ n ∈ ms, c.mods n = none) → nm ∉ ms →
    c.mods nm = some (g :: gs) → g < c.next → g ≠ pre → (c.gen g).parent = none → (c.gen g).inst = nm →
    (∀ x ∈ (ms.reverse ++ [(c.gen pre).inst]).head?, x ∉ (c.gen g).kids.map (·.1)) →
    ∃ c' k, loop tn c pre (ms ++ [r]) = .ok c' ∧ Handle c' pre (nm :: ms.reverse ++ [(c.gen pre).inst]) ∧
      Down c' g (ms.reverse ++ [(c.gen pre).inst]) pre ∧
      (∀ x ∈ (ms.reverse ++ [(c.gen pre).inst]).head?, c'.gen g = { c.gen g with kids := (c.gen g).kids ++ [(x, k)] }) ∧
      (c'.gen pre).kids = (c.gen pre).kids ∧ ∀ h, h < c.next → h ≠ pre → h ≠ g → c'.gen h = c.gen h
  | [], c, pre, _, _, _, _, _, hm, _, hgp, hg0, hgi, hk => by
    have hk := hk _ rfl
    have hgp' : pre ≠ g := fun h => hgp h.symm
    refine ⟨joined c pre g, pre, ?_, ?_, ?_, ?_, ?_, ?_⟩
    · show (pick c (if ([] : List Str).isEmpty && !tn.isEmpty then tn else r)).bind _ = _
      have : (if ([] : List Str).isEmpty && !tn.isEmpty then tn else r) = nm := hnm
      rw [this]
      simp only [pick, hm, Res.ok_bind]
      unfold addChild
      have hc : (((c.gen g).kids.map (·.1)).contains (c.gen pre).inst) = false := by
        rw [Bool.eq_false_iff]
        exact fun h => hk (List.contains_iff_mem.1 h)
      simp only [Ctx.set, hgp, hgp', if_false, if_true, hc, Bool.false_eq_true, Res.ok_bind, loop, joined]
      congr 2
      funext h
      by_cases h1 : h = pre
      · simp [h1]
      · by_cases h2 : h = g
        · simp [h2, hgp]
        · simp [h1, h2]
    · have := Handle.child (c := joined c pre g) (g := pre) (p := g) (l := [nm]) (by simp [joined]) (by
          have h := Handle.root (c := joined c pre g) (g := g) (by simp [joined, hgp, hg0])
          simpa [joined, hgp, hgi] using h)
      simpa [joined] using this
    · exact Down.step (h := pre) (by simp [joined, hgp]) .here
    · intro x hx
      cases hx
      simp [joined, hgp]
    · simp [joined]
    · intro h _ h1 h2
      simp [joined, h1, h2]
  | n :: ms, c, pre, hp, hr, hn, hm, hnn, hmod, hgl, hgp, hg0, hgi, hk => by
    obtain ⟨hn1, hn2⟩ := List.nodup_cons.1 hn
    have hne : pre ≠ c.next := Nat.ne_of_lt hp
    have hne' : c.next ≠ pre := fun h => hne h.symm
    have hgn : g ≠ c.next := Nat.ne_of_lt hgl
    have hnr : nm ≠ n := fun h => hnn (h ▸ List.mem_cons_self)
    have hstep := loop_step tn c pre n (ms ++ [r]) n (by simp) (hm n List.mem_cons_self) hne
    have ag : (after c pre n).gen g = c.gen g := by simp [after, hgp, hgn]
    have an : (after c pre n).gen c.next = { inst := n, kids := [((c.gen pre).inst, pre)] } := by simp [after, hne']
    have ap : (after c pre n).gen pre = { c.gen pre with parent := some c.next } := by simp [after]
    have hhead : (ms.reverse ++ [n]).head? = ((n :: ms).reverse ++ [(c.gen pre).inst]).head? := by
      rw [List.reverse_cons]
      cases ms.reverse <;> rfl
    obtain ⟨c', k, h1, h2, h3, h4, h5, h6⟩ := loop_join tn r nm hnm g gs ms (after c pre n) c.next (Nat.lt_succ_self _) (by rw [an]) hn2
      (by
        intro m hmm
        show (if m = n then _ else _) = none
        rw [if_neg (fun h : m = n => hn1 (h ▸ hmm))]
        exact hm m (List.mem_cons_of_mem _ hmm))
      (fun h => hnn (List.mem_cons_of_mem _ h))
      (by
        show (if nm = n then _ else _) = _
        rw [if_neg hnr]
        exact hmod)
      (Nat.lt_succ_of_lt hgl) hgn (by rw [ag]; exact hg0) (by rw [ag]; exact hgi)
      (by
        rw [an, ag]
        show ∀ x ∈ (ms.reverse ++ [n]).head?, _
        rw [hhead]
        exact hk)
    rw [an] at h2 h3 h4 h5
    have hpre : c'.gen pre = { c.gen pre with parent := some c.next } := by
      rw [h6 pre (Nat.lt_succ_of_lt hp) hne (fun h => hgp h.symm), ap]
    refine ⟨c', k, ?_, ?_, ?_, ?_, ?_, ?_⟩
    · rw [List.cons_append, hstep]
      exact h1
    · have := Handle.child (c := c') (g := pre) (p := c.next) (by rw [hpre]) h2
      rw [hpre] at this
      rw [List.reverse_cons]
      exact this
    · rw [List.reverse_cons]
      exact h3.snoc (by rw [h5]; exact List.mem_cons_self)
    · intro x hx
      rw [← hhead] at hx
      rw [h4 x hx, ag]
    · rw [hpre]
    · intro h hl h1 h2
      rw [h6 h (Nat.lt_succ_of_lt hl) (Nat.ne_of_lt hl) h2]
      simp [after, h1, Nat.ne_of_lt hl]

theorem mem_join {t : Str} : ∀ {ts : List Str} {c : Char}, t ∈ ts → c ∈ t → c ∈ join ['.'] ts
  | [_], _, ht, hc => by
    rw [List.mem_singleton.1 ht] at hc
    exact hc
  | a :: b :: ts, c, ht, hc => by
    show c ∈ a ++ ['.'] ++ join ['.'] (b :: ts)
    rcases List.mem_cons.1 ht with rfl | ht
    · exact List.mem_append_left _ (List.mem_append_left _ hc)
    · exact List.mem_append_right _ (mem_join ht hc)

theorem dot_mem : ∀ {ts : List Str} (last : Str), ts ≠ [] → '.' ∈ join ['.'] (ts ++ [last])
  | [], _, h => absurd rfl h
  | [a], last, _ => by
    show '.' ∈ a ++ ['.'] ++ last
    simp
  | a :: b :: ts, last, _ => by
    show '.' ∈ a ++ ['.'] ++ join ['.'] (b :: ts ++ [last])
    simp

theorem mock_names {c : Ctx} {top : Nat} (tn : Str) {ns : List Str} {last : Str} (hns : ns ≠ []) (hp : ∀ n ∈ ns ++ [last], Plain n)
    (hi : (c.gen top).inst = join ['.'] (ns ++ [last])) :
    mock c top tn = loop tn (c.set top { c.gen top with inst := last }) top ns.reverse := by
  have ht : getTokens (c.gen top).inst ['.'] = ns ++ [last] := by
    rw [hi]
    refine tokens_join ['.'] ['.'] (by simp) (fun c h => h) _ fun t h => ⟨(hp t h).1, fun c hc hd => ?_⟩
    rw [List.mem_singleton.1 hd] at hc
    exact (hp t h).2 hc
  have hd : (c.gen top).inst.contains '.' = true := by
    rw [hi]
    exact List.contains_iff_mem.2 (dot_mem last hns)
  have hl : ¬ (ns ++ [last]).length < 2 := by
    have := List.length_pos_iff.2 hns
    simp only [List.length_append, List.length_singleton]
    omega
  unfold mock
  rw [hd, ht]
  simp only [Bool.not_true, Bool.false_eq_true, if_false, hl]
  rw [List.dropLast_concat]
  simp

/-! ## Theorems -/

/-- C118, partial: if the names of the path are different from each other and no generator of the context has one of them, the path is the full
name, the generator is found by following it from the outermost, and no other generator is touched.  What is missing is false:
`repeated_endless`, `shared_refused`, `existing_wrong`, `removed_undefined`. -/
theorem mock_partial (c : Ctx) (top : Nat) (topName : Str) (ns : List Str) (last : Str) (ht : top < c.next) (hr : (c.gen top).parent = none)
    (hns : ns ≠ []) (hp : ∀ n ∈ ns ++ [last], Plain n) (hi : (c.gen top).inst = join ['.'] (ns ++ [last]))
    (hd : (Used topName ns).Nodup) (hm : ∀ n ∈ Used topName ns, c.mods n = none) :
    ∃ c', mock c top topName = .ok c' ∧ Made c c' top (Used topName ns ++ [last]) := by
  rw [mock_names topName hns hp hi]
  have hg : (c.set top { c.gen top with inst := last }).gen top = { c.gen top with inst := last } := by simp [Ctx.set]
  obtain ⟨c', h1, h2, h3, _, h5, h6⟩ := loop_made topName ns.reverse (c.set top { c.gen top with inst := last }) top ht (by rw [hg]; exact hr)
    (by rw [List.reverse_reverse]; exact hd) (by rw [List.reverse_reverse]; exact hm)
  rw [List.reverse_reverse, hg] at h2 h3
  refine ⟨c', h1, h2, h3, ?_, ?_⟩
  · rw [h5, hg]
  · intro g hgl hgt
    rw [h6 g hgl hgt]
    simp [Ctx.set, hgt]

/-- C118, partial: several generators below one outermost generator, which keeps the children it has, as long as the names below it are new. -/
theorem mock_join_partial (c : Ctx) (top g : Nat) (gs : List Nat) (topName root : Str) (ns : List Str) (last : Str) (ht : top < c.next)
    (hr : (c.gen top).parent = none) (hp : ∀ n ∈ root :: ns ++ [last], Plain n) (hi : (c.gen top).inst = join ['.'] (root :: ns ++ [last]))
    (hd : ns.Nodup) (hm : ∀ n ∈ ns, c.mods n = none) (hg : c.mods (if topName = [] then root else topName) = some (g :: gs)) (hgl : g < c.next)
    (hgt : g ≠ top) (hg0 : (c.gen g).parent = none) (hgi : (c.gen g).inst = if topName = [] then root else topName)
    (hk : ∀ x ∈ (ns ++ [last]).head?, x ∉ (c.gen g).kids.map (·.1)) :
    ∃ c' k, mock c top topName = .ok c' ∧ Handle c' top (Used topName (root :: ns) ++ [last]) ∧ Down c' g (ns ++ [last]) top ∧
      (∀ x ∈ (ns ++ [last]).head?, c'.gen g = { c.gen g with kids := (c.gen g).kids ++ [(x, k)] }) ∧ (c'.gen top).kids = (c.gen top).kids ∧
      ∀ h, h < c.next → h ≠ top → h ≠ g → c'.gen h = c.gen h := by
  rw [mock_names topName (by simp) hp hi]
  have hs : (c.set top { c.gen top with inst := last }).gen top = { c.gen top with inst := last } := by simp [Ctx.set]
  have hsg : (c.set top { c.gen top with inst := last }).gen g = c.gen g := by simp [Ctx.set, hgt]
  have hif : (if !topName.isEmpty then topName else root) = if topName = [] then root else topName := by
    cases topName <;> simp
  have hnot : (if topName = [] then root else topName) ∉ ns := by
    intro h
    rw [hm _ h] at hg
    cases hg
  obtain ⟨c', k, h1, h2, h3, h4, h5, h6⟩ := loop_join topName root _ hif g gs ns.reverse (c.set top { c.gen top with inst := last }) top ht
    (by rw [hs]; exact hr) (List.pairwise_reverse.2 (hd.imp Ne.symm)) (fun n hn => hm n (List.mem_reverse.1 hn)) (fun h => hnot (List.mem_reverse.1 h)) hg hgl hgt
    (by rw [hsg]; exact hg0) (by rw [hsg]; exact hgi) (by rw [hs, hsg, List.reverse_reverse]; exact hk)
  rw [hs, List.reverse_reverse] at h2 h3 h4
  rw [hs] at h5
  refine ⟨c', k, ?_, h2, h3, ?_, h5, ?_⟩
  · rw [List.reverse_cons]
    exact h1
  · intro x hx
    rw [h4 x hx, hsg]
  · intro h hl h1 h2
    rw [h6 h hl h1 h2]
    simp [Ctx.set, h1]

/-- A name that is taken: adding a child is refused, whatever the context. -/
theorem clash_refused (c : Ctx) (g : Nat) (n : Str) (ch : Nat) (h : n ∈ (c.gen g).kids.map (·.1)) : addChild c g n ch = .throw .generator := by
  have : ((c.set ch { c.gen ch with inst := n }).gen g).kids = (c.gen g).kids := by
    by_cases hc : g = ch
    · subst hc
      simp [Ctx.set]
    · simp [Ctx.set, hc]
  unfold addChild
  dsimp only
  rw [this, List.contains_iff_mem.2 h]
  rfl

/-- A generator whose instance name has no dot is left alone. -/
theorem mock_plain (c : Ctx) (top : Nat) (topName : Str) (h : '.' ∉ (c.gen top).inst) : mock c top topName = .ok c := by
  unfold mock
  have : (c.gen top).inst.contains '.' = false := by
    rw [Bool.eq_false_iff]
    exact fun hc => h (List.contains_iff_mem.1 hc)
  rw [this]
  rfl

/-- Calling again does nothing. -/
theorem mock_again (c c' : Ctx) (top : Nat) (topName topName' : Str) (ns : List Str) (last : Str) (ht : top < c.next)
    (hr : (c.gen top).parent = none) (hns : ns ≠ []) (hp : ∀ n ∈ ns ++ [last], Plain n) (hi : (c.gen top).inst = join ['.'] (ns ++ [last]))
    (hd : (Used topName ns).Nodup) (hm : ∀ n ∈ Used topName ns, c.mods n = none) (h : mock c top topName = .ok c') :
    mock c' top topName' = .ok c' := by
  rw [mock_names topName hns hp hi] at h
  have hg : (c.set top { c.gen top with inst := last }).gen top = { c.gen top with inst := last } := by simp [Ctx.set]
  obtain ⟨c'', h1, _, _, h4, _, _⟩ := loop_made topName ns.reverse (c.set top { c.gen top with inst := last }) top ht (by rw [hg]; exact hr)
    (by rw [List.reverse_reverse]; exact hd) (by rw [List.reverse_reverse]; exact hm)
  rw [h] at h1
  injection h1 with h1
  subst h1
  apply mock_plain
  rw [h4, hg]
  exact (hp last (List.mem_append_right _ List.mem_cons_self)).2

/-! ## Examples and witnesses -/

/-- A context with one generator. -/
def one (name inst : String) : Ctx := create { next := 0, gen := fun _ => { inst := [] }, mods := fun _ => none } name.toList |>.set 0 { inst := inst.toList }

/-- What can be read of a result. -/
def view (r : Res Ctx) (n : Nat) : Res (List Gen) := r.bind fun c => .ok ((List.range n).map c.gen)

/-- The example of the repository's test: `mod1.mod2.mod3` below `dut`. -/
example : view (mock (one "mod" "mod1.mod2.mod3") 0 "dut".toList) 3 = .ok
    [{ inst := "mod3".toList, parent := some 1 }, { inst := "mod2".toList, parent := some 2, kids := [("mod3".toList, 0)] },
     { inst := "dut".toList, parent := none, kids := [("mod2".toList, 1)] }] := by decide +kernel
example : ∃ c', mock (one "mod" "mod1.mod2.mod3") 0 "dut".toList = .ok c' ∧
    Made (one "mod" "mod1.mod2.mod3") c' 0 ["dut".toList, "mod2".toList, "mod3".toList] :=
  mock_partial (one "mod" "mod1.mod2.mod3") 0 "dut".toList ["mod1".toList, "mod2".toList] "mod3".toList (by decide) rfl (by simp)
    (by unfold Plain; decide +kernel) (by decide +kernel) (by decide +kernel) (by decide +kernel)

/-- A generator that is its own parent has no full name. -/
theorem no_handle {c : Ctx} {x : Nat} (h : (c.gen x).parent = some x) : ∀ l, ¬ Handle c x l := by
  intro l hl
  generalize hg : x = g at hl
  induction hl with
  | root hn =>
    subst hg
    rw [h] at hn
    cases hn
  | child hp _ ih =>
    subst hg
    rw [h] at hp
    injection hp with hp
    exact ih hp

/-- A path with a name twice: the second generator made is the first one, and asking for the full name never ends. -/
theorem repeated_endless : ∃ c', mock (one "mod" "x.x.t") 0 [] = .ok c' ∧ ∀ l, ¬ Handle c' 0 l := by
  have hv : view (mock (one "mod" "x.x.t") 0 []) 2 = .ok [{ inst := "t".toList, parent := some 1 },
      { inst := "x".toList, parent := some 1, kids := [("t".toList, 0), ("x".toList, 1)] }] := by decide +kernel
  unfold view at hv
  rw [Res.bind_eq_ok] at hv
  obtain ⟨c', h1, h2⟩ := hv
  injection h2 with h2
  simp only [List.range, List.range.loop, List.map_cons, List.map_nil, List.cons.injEq, and_true] at h2
  refine ⟨c', h1, fun l hl => ?_⟩
  cases hl with
  | root h => rw [h2.1] at h; cases h
  | child h hh =>
    rw [h2.1] at h
    injection h with h
    subst h
    exact no_handle (by rw [h2.2]) _ hh

/-- Two generators below one path: the second call is refused, since the shared parent is added to its parent again. -/
def second : Res Ctx :=
  (mock (one "m1" "tb.a.d1") 0 []).bind fun c =>
    let i := c.next
    mock ((create c "m2".toList).set i { inst := "tb.a.d2".toList }) i []

theorem shared_refused : second = .throw .generator := by
  have h : (second.bind fun c => .ok c.next) = .throw .generator := by decide +kernel
  cases hs : second with
  | ok c => rw [hs] at h; cases h
  | throw e => rw [hs] at h; injection h with h; rw [h]
  | ub => rw [hs] at h; cases h

/-- Two generators below one outermost name are fine. -/
example : ((mock (one "m1" "tb.d1") 0 []).bind fun c =>
    view (mock ((create c "m2".toList).set c.next { inst := "tb.d2".toList }) c.next []) 3) = .ok
    [{ inst := "d1".toList, parent := some 1 }, { inst := "tb".toList, kids := [("d1".toList, 0), ("d2".toList, 2)] },
     { inst := "d2".toList, parent := some 1 }] := by decide +kernel

example : ∃ c' k, mock ((create (one "m2" "tb.d2") "tb".toList).set 1 { inst := "tb".toList, kids := [("d1".toList, 5)] }) 0 [] = .ok c' ∧
    Handle c' 0 ["tb".toList, "d2".toList] ∧ (c'.gen 1).kids = [("d1".toList, 5), ("d2".toList, k)] := by
  obtain ⟨c', k, h1, h2, _, h4, _⟩ := mock_join_partial ((create (one "m2" "tb.d2") "tb".toList).set 1 { inst := "tb".toList, kids := [("d1".toList, 5)] })
    0 1 [] [] "tb".toList [] "d2".toList (by decide) rfl (by unfold Plain; decide +kernel) (by decide +kernel) (by simp) (by simp) (by decide +kernel)
    (by decide) (by decide) rfl (by decide +kernel) (by intro x hx; cases hx; decide +kernel)
  exact ⟨c', k, h1, h2, by rw [h4 _ rfl]; rfl⟩

/-- A module of the design has the name: its instance name is used. -/
theorem existing_wrong : view (mock ((create (one "mod" "tb.t") "tb".toList).set 1 { inst := "u0".toList }) 0 []) 2 = .ok
    [{ inst := "t".toList, parent := some 1 }, { inst := "u0".toList, kids := [("t".toList, 0)] }] := by decide +kernel

/-- All generators of that name were removed from the context. -/
theorem removed_undefined : view (mock { one "mod" "tb.t" with mods := fun m => if m = "tb".toList then some [] else none } 0 []) 1 = .ub := by
  decide +kernel

theorem not_MockClaim : ¬ MockClaim := by
  intro h
  obtain ⟨c', h1, h2⟩ := h (one "mod" "x.x.t") 0 [] ["x".toList, "x".toList] "t".toList (by decide) rfl (by simp)
    (by unfold Plain; decide +kernel) (by decide +kernel)
  obtain ⟨c'', h3, h4⟩ := repeated_endless
  rw [h1] at h3
  injection h3 with h3
  subst h3
  exact h4 _ h2

end Kratos.Mock
