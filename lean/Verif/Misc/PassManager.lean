import Verif.Base
import Verif.Util.Map

/-!
# C63: the pass manager

A pass is a function on designs (`G`) that returns or throws and in either case leaves a design behind; the manager
never looks inside.
-/

namespace Kratos.Pass

abbrev Name := List Char

/-- A pass: `std::function<void(Generator*)>`. -/
abbrev Fn (G : Type) := G → G × Res Unit

/-- The members (src/pass.hh:152-153); `collect_perf_` only prints. `std::map` as an association list. -/
structure Manager (G : Type) where
  passes : List (Name × Fn G)
  order : List Name

variable {G : Type}

/-- `std::map::find`. -/
def find (n : Name) : List (Name × Fn G) → Option (Fn G)
  | [] => none
  | (m, f) :: ps => if m = n then some f else find n ps

/-- `has_pass` (src/pass.hh:139-141). -/
def Manager.has (m : Manager G) (n : Name) : Bool := (find n m.passes).isSome

/-- `register_pass` (src/pass.cc:93-105), both overloads. -/
def Manager.register (m : Manager G) (n : Name) (f : Fn G) : Manager G × Res Unit :=
  if m.has n then (m, .throw .user) else ({ m with passes := m.passes ++ [(n, f)] }, .ok ())

/-- `add_pass` (src/pass.cc:107-111). -/
def Manager.add (m : Manager G) (n : Name) : Manager G × Res Unit :=
  if !m.has n then (m, .throw .user) else ({ m with order := m.order ++ [n] }, .ok ())

/-- The loop of `run_passes` (src/pass.cc:125-137); the list of names is what is left to run. `passes_.at`
throws `std::out_of_range`. -/
def runLoop (ps : List (Name × Fn G)) : List Name → G → G × Res Unit
  | [], g => (g, .ok ())
  | n :: ns, g => match find n ps with
    | none => (g, .throw .outOfRange)
    | some f => match f g with
      | (g, .ok _) => runLoop ps ns g
      | (g, r) => (g, r)

def Manager.run (m : Manager G) (g : G) : G × Res Unit := runLoop m.passes m.order g

/-- Calls on the manager, other than running. -/
inductive Op (G : Type) where
  | register (n : Name) (f : Fn G)
  | add (n : Name)

def Manager.step (m : Manager G) : Op G → Manager G × Res Unit
  | .register n f => m.register n f
  | .add n => m.add n

/-- The manager after a history of calls, starting from an empty one. -/
def Manager.after : List (Op G) → Manager G := List.foldl (fun m o => (m.step o).1) ⟨[], []⟩

/-! ### Specification: from the history alone -/

/-- The first registration of the name in the history counts. -/
def firstRegistered (n : Name) : List (Op G) → Option (Fn G)
  | [] => none
  | .register m f :: os => if m = n then some f else firstRegistered n os
  | .add _ :: os => firstRegistered n os

/-- The functions of the `add` calls made when the name was already registered, in order. `pre` is the
history so far. -/
def wanted (pre : List (Op G)) : List (Op G) → List (Fn G)
  | [] => []
  | .register n f :: os => wanted (pre ++ [.register n f]) os
  | .add n :: os => match firstRegistered n pre with
    | some f => f :: wanted (pre ++ [.add n]) os
    | none => wanted (pre ++ [.add n]) os

/-- Running functions one after the other until one of them throws. -/
def inOrder : List (Fn G) → G → G × Res Unit
  | [], g => (g, .ok ())
  | f :: fs, g => match f g with
    | (g, .ok _) => inOrder fs g
    | (g, r) => (g, r)

/-! ### Proofs -/

theorem find_append (n : Name) : ∀ (a b : List (Name × Fn G)), find n (a ++ b) = (find n a).or (find n b)
  | [], b => by simp [find]
  | (m, f) :: a, b => by
    simp only [List.cons_append, find]
    split
    · rfl
    · exact find_append n a b

theorem firstRegistered_append (n : Name) : ∀ (a b : List (Op G)),
    firstRegistered n (a ++ b) = (firstRegistered n a).or (firstRegistered n b)
  | [], b => by simp [firstRegistered]
  | .register m f :: a, b => by
    simp only [List.cons_append, firstRegistered]
    split
    · rfl
    · exact firstRegistered_append n a b
  | .add m :: a, b => by
    simp only [List.cons_append, firstRegistered]
    exact firstRegistered_append n a b

theorem after_snoc (os : List (Op G)) (o : Op G) : Manager.after (os ++ [o]) = ((Manager.after os).step o).1 := by
  simp [Manager.after]

/-- What is registered after a history. -/
theorem find_after (n : Name) (os : List (Op G)) : find n (Manager.after os).passes = firstRegistered n os := by
  have key : ∀ (k : Nat) (os : List (Op G)), os.length = k → ∀ n, find n (Manager.after os).passes = firstRegistered n os := by
    intro k
    induction k with
    | zero => intro os h n; rw [List.length_eq_zero_iff.1 h]; rfl
    | succ k ih =>
      intro os h n
      obtain ⟨os', o, rfl⟩ : ∃ os' o, os = os' ++ [o] := by
        rcases List.eq_nil_or_concat os with rfl | ⟨l, b, e⟩
        · simp at h
        · exact ⟨l, b, by simpa using e⟩
      have ih := ih os' (by simpa using h)
      rw [after_snoc, firstRegistered_append, ← ih n]
      cases o with
      | add m =>
        simp only [Manager.step, Manager.add, firstRegistered, Option.or_none]
        split <;> rfl
      | register m f =>
        simp only [Manager.step, Manager.register, firstRegistered]
        split
        · rename_i hh
          rw [Manager.has] at hh
          by_cases e : m = n
          · subst e
            cases hf : find m (Manager.after os').passes with
            | none => rw [hf] at hh; simp at hh
            | some g => rfl
          · simp [e]
        · rw [find_append]
          simp [find]
  exact key os.length os rfl n

/-- The functions behind the order list. -/
theorem order_after (os : List (Op G)) : (Manager.after os).order.map (fun n => find n (Manager.after os).passes) =
    (wanted [] os).map some := by
  have key : ∀ (os pre : List (Op G)), (Manager.after (pre ++ os)).order.map (fun n => find n (Manager.after (pre ++ os)).passes) =
      (Manager.after pre).order.map (fun n => find n (Manager.after pre).passes) ++ (wanted pre os).map some ∨
      ∃ n ∈ (Manager.after pre).order, find n (Manager.after pre).passes = none := by
    intro os
    induction os with
    | nil => intro pre; left; simp [wanted]
    | cons o os ih =>
      intro pre
      rcases Classical.em (∃ n ∈ (Manager.after pre).order, find n (Manager.after pre).passes = none) with hbad | hok
      · exact Or.inr hbad
      left
      have hok : ∀ n ∈ (Manager.after pre).order, ∃ f, find n (Manager.after pre).passes = some f := by
        intro n hn
        cases hf : find n (Manager.after pre).passes with
        | some f => exact ⟨f, rfl⟩
        | none => exact absurd ⟨n, hn, hf⟩ hok
      have hstay : ∀ n ∈ (Manager.after pre).order, find n (Manager.after (pre ++ [o])).passes = find n (Manager.after pre).passes := by
        intro n hn
        obtain ⟨f, hf⟩ := hok n hn
        rw [find_after, firstRegistered_append, ← find_after, hf]
        rfl
      have hmap := List.map_congr_left hstay
      have ih := ih (pre ++ [o])
      rw [List.append_assoc] at ih
      have hgood : ¬ ∃ n ∈ (Manager.after (pre ++ [o])).order, find n (Manager.after (pre ++ [o])).passes = none := by
        rintro ⟨n, hn, hf⟩
        rw [after_snoc] at hn
        cases o with
        | register m f =>
          have hn : n ∈ (Manager.after pre).order := by
            simp only [Manager.step, Manager.register] at hn
            split at hn <;> exact hn
          obtain ⟨f, hf'⟩ := hok n hn
          rw [hstay n hn, hf'] at hf
          cases hf
        | add m =>
          simp only [Manager.step, Manager.add] at hn
          split at hn
          · obtain ⟨f, hf'⟩ := hok n hn
            rw [hstay n hn, hf'] at hf
            cases hf
          · rename_i hh
            rcases List.mem_append.1 hn with hn | hn
            · obtain ⟨f, hf'⟩ := hok n hn
              rw [hstay n hn, hf'] at hf
              cases hf
            · rw [List.mem_singleton] at hn
              subst hn
              rw [find_after, firstRegistered_append, ← find_after] at hf
              cases hf' : find n (Manager.after pre).passes with
              | none => exact hh (by simp [Manager.has, hf'])
              | some f => rw [hf'] at hf; cases hf
      rcases ih with ih | ih
      · rw [show pre ++ o :: os = pre ++ ([o] ++ os) from rfl, ih]
        cases o with
        | register m f =>
          have ho : (Manager.after (pre ++ [.register m f])).order = (Manager.after pre).order := by
            rw [after_snoc]
            simp only [Manager.step, Manager.register]
            split <;> rfl
          rw [ho, hmap]
          simp only [wanted]
        | add m =>
          simp only [wanted]
          rw [← find_after]
          cases hf : find m (Manager.after pre).passes with
          | none =>
            have ho : (Manager.after (pre ++ [.add m])).order = (Manager.after pre).order := by
              rw [after_snoc]
              simp [Manager.step, Manager.add, Manager.has, hf]
            rw [ho, hmap]
          | some f =>
            have ho : (Manager.after (pre ++ [.add m])).order = (Manager.after pre).order ++ [m] := by
              rw [after_snoc]
              simp [Manager.step, Manager.add, Manager.has, hf]
            have hm : find m (Manager.after (pre ++ [.add m])).passes = some f := by
              rw [find_after, firstRegistered_append, ← find_after, hf]; rfl
            rw [ho, List.map_append, hmap]
            simp [hm]
      · exact absurd ih hgood
  rcases key os [] with h | ⟨n, hn, _⟩
  · simpa [Manager.after] using h
  · simp [Manager.after] at hn

theorem runLoop_inOrder (ps : List (Name × Fn G)) : ∀ (ns : List Name) (fs : List (Fn G)),
    ns.map (fun n => find n ps) = fs.map some → ∀ g, runLoop ps ns g = inOrder fs g
  | [], [], _, g => rfl
  | [], _ :: _, h, _ => by simp at h
  | _ :: _, [], h, _ => by simp at h
  | n :: ns, f :: fs, h, g => by
    simp only [List.map_cons, List.cons.injEq] at h
    simp only [runLoop, inOrder, h.1]
    split
    · exact runLoop_inOrder ps ns fs h.2 _
    · rfl

/-- **C63**: after any history of registrations and additions, running the passes runs exactly the passes
of the successful additions, in the order of the additions, each with the function it was first registered
with, up to the first pass that throws. In particular the lookup never fails. -/
theorem run_spec (os : List (Op G)) (g : G) : (Manager.after os).run g = inOrder (wanted [] os) g :=
  runLoop_inOrder _ _ _ (order_after os) g

/-- **C63, rejections**: registering is refused exactly when the name was registered before, adding exactly
when it was not; a refused call changes nothing. -/
theorem register_refused_iff (os : List (Op G)) (n : Name) (f : Fn G) :
    ((Manager.after os).register n f = (Manager.after os, .throw .user) ↔ (firstRegistered n os).isSome) ∧
    (((Manager.after os).register n f).2 = .ok () ↔ firstRegistered n os = none) := by
  rw [← find_after]
  unfold Manager.register Manager.has
  cases hf : find n (Manager.after os).passes <;> simp

theorem add_refused_iff (os : List (Op G)) (n : Name) :
    ((Manager.after os).add n = (Manager.after os, .throw .user) ↔ firstRegistered n os = none) ∧
    (((Manager.after os).add n).2 = .ok () ↔ (firstRegistered n os).isSome) := by
  rw [← find_after]
  unfold Manager.add Manager.has
  cases hf : find n (Manager.after os).passes <;> simp

/-- Running changes nothing in the manager, so it can be repeated: two runs are the passes twice. -/
theorem run_twice (os : List (Op G)) (g g' : G) (h : (Manager.after os).run g = (g', .ok ())) :
    (Manager.after os).run g' = inOrder (wanted [] os) g' ∧
    inOrder (wanted [] os ++ wanted [] os) g = (Manager.after os).run g' := by
  refine ⟨run_spec os g', ?_⟩
  rw [run_spec] at *
  generalize wanted [] os = fs at *
  have key : ∀ (a b : List (Fn G)) (g g' : G), inOrder a g = (g', .ok ()) → inOrder (a ++ b) g = inOrder b g' := by
    intro a
    induction a with
    | nil => intro b g g' h; simp only [inOrder, Prod.mk.injEq] at h; rw [← h.1]; rfl
    | cons f a ih =>
      intro b g g' h
      simp only [inOrder, List.cons_append] at h ⊢
      split at h
      · rename_i g1 _ e
        exact ih b g1 g' h
      · rename_i g1 r hne e
        injection h with _ h
        exact absurd h (hne _)
  exact key fs fs g g' h

/-- "Once each" is up to the caller: a pass added twice runs twice. -/
theorem added_twice_runs_twice (n : Name) (f : Fn G) : wanted [] [.register n f, .add n, .add n] = [f, f] := by
  simp [wanted, firstRegistered]

/-- A history with refused calls, a repeated name and a throwing pass. -/
example : (Manager.after [.register ['a'] (fun g => (g ++ [1], .ok ())), .add ['b'],
      .register ['b'] (fun g => (g ++ [2], .throw .user)), .register ['a'] (fun g => (g ++ [3], .ok ())),
      .add ['a'], .add ['b'], .add ['a']]).run ([] : List Nat) = ([1, 2], .throw .user) := by
  rw [run_spec]
  simp [wanted, firstRegistered, inOrder]

end Kratos.Pass
