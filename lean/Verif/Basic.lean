/-!
# Shared outcome type

C functions that can fail or misbehave are modelled with `Res`:
`ok` is a normal return, `err` is a reported error (NGX_ERROR, NGX_BAD_DATA, NULL),
`ub` is undefined behaviour (read outside a buffer, NULL dereference, ...).
`ub` is never produced by a default value; a theorem that excludes it says so.
-/

namespace Verif

/-- Outcome of a modelled C call. Not tied to one C file: see the module comment. -/
inductive Res (α : Type u) where
  | ok  : α → Res α
  | err : Res α
  | ub  : Res α
deriving Repr, DecidableEq

namespace Res

/-- Sequencing of modelled C calls; models "if (rc != NGX_OK) return rc;". -/
def bind {α : Type u} {β : Type v} : Res α → (α → Res β) → Res β
  | ok a, f => f a
  | err, _ => err
  | ub, _ => ub

/-- Apply a pure function to the result of a successful call. -/
def map {α : Type u} {β : Type v} (f : α → β) : Res α → Res β
  | ok a => ok (f a)
  | err => err
  | ub => ub

instance : Monad Res where
  pure := ok
  bind := bind

@[simp] theorem bind_ok {α β : Type u} (a : α) (f : α → Res β) :
    (Res.ok a >>= f) = f a := rfl
@[simp] theorem bind_err {α β : Type u} (f : α → Res β) :
    ((Res.err : Res α) >>= f) = Res.err := rfl
@[simp] theorem bind_ub {α β : Type u} (f : α → Res β) :
    ((Res.ub : Res α) >>= f) = Res.ub := rfl
@[simp] theorem map_ok {α : Type u} {β : Type v} (f : α → β) (a : α) :
    (Res.ok a).map f = Res.ok (f a) := rfl
@[simp] theorem map_err {α : Type u} {β : Type v} (f : α → β) :
    (Res.err : Res α).map f = Res.err := rfl
@[simp] theorem map_ub {α : Type u} {β : Type v} (f : α → β) :
    (Res.ub : Res α).map f = Res.ub := rfl

end Res
end Verif
