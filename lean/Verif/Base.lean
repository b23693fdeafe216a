/-!
# Outcomes of a C++ call

Common to the whole model.  A modelled C++ function returns

* `ok a`    – it returned normally with value `a`;
* `throw e` – it threw a C++ exception (the exception classes of `src/except.cc`
  are reduced to a short tag);
* `ub`      – it executed something the C++ standard leaves undefined (shift by
  ≥ 64, division by zero, null dereference, …).
-/

namespace Kratos

/-- Exception tags (`src/except.hh`, `std::runtime_error`, `std::out_of_range`). -/
inductive Err where
  | user        -- UserException / InternalException / std::runtime_error with a message
  | notImpl     -- std::runtime_error("Not implemented")
  | var         -- VarException
  | stmt        -- StmtException
  | generator   -- GeneratorException
  | outOfRange  -- std::out_of_range from `.at()`
  | invalidArg  -- std::invalid_argument
  deriving DecidableEq, Repr

inductive Res (α : Type u) where
  | ok (a : α)
  | throw (e : Err)
  | ub
  deriving DecidableEq, Repr

namespace Res

/-- Sequencing: an exception or undefined behaviour ends the call. -/
def bind {α : Type u} {β : Type v} : Res α → (α → Res β) → Res β
  | ok a, f => f a
  | throw e, _ => throw e
  | ub, _ => ub

def map {α : Type u} {β : Type v} (f : α → β) : Res α → Res β
  | ok a => ok (f a)
  | throw e => throw e
  | ub => ub

instance : Monad Res where
  pure := ok
  bind := bind
  map := map

@[simp] theorem pure_def {α : Type u} (a : α) : (pure a : Res α) = ok a := rfl
@[simp] theorem bind_def {α β : Type u} (x : Res α) (f : α → Res β) : (x >>= f) = bind x f := rfl
@[simp] theorem map_def {α β : Type u} (x : Res α) (f : α → β) : (f <$> x) = map f x := rfl

@[simp] theorem ok_bind {α : Type u} {β : Type v} (a : α) (f : α → Res β) : bind (ok a) f = f a := rfl
@[simp] theorem throw_bind {α : Type u} {β : Type v} (e : Err) (f : α → Res β) :
    bind (throw e : Res α) f = throw e := rfl
@[simp] theorem ub_bind {α : Type u} {β : Type v} (f : α → Res β) : bind (ub : Res α) f = ub := rfl
@[simp] theorem bind_ok {α : Type u} (x : Res α) : bind x ok = x := by cases x <;> rfl
@[simp] theorem ok_map {α : Type u} {β : Type v} (a : α) (f : α → β) : map f (ok a) = ok (f a) := rfl
@[simp] theorem throw_map {α : Type u} {β : Type v} (e : Err) (f : α → β) : map f (throw e) = throw e := rfl
@[simp] theorem ub_map {α : Type u} {β : Type v} (f : α → β) : map f (ub : Res α) = ub := rfl

theorem bind_eq_ok {α : Type u} {β : Type v} {x : Res α} {f : α → Res β} {b : β} :
    bind x f = ok b ↔ ∃ a, x = ok a ∧ f a = ok b := by
  cases x <;> simp

/-- The call returned normally. -/
def isOk {α : Type u} : Res α → Bool
  | ok _ => true
  | _ => false

end Res
end Kratos
