import Verif.Model.Py

/-!
What it means for six python comparison methods to form a total order.
-/

namespace Dsrg

/-- The six comparison methods are a total order on comparable objects, where `same` is what `==` should mean; objects
that are not comparable raise `TypeError`. -/
structure PyTotalOrder {α : Type} (comparable same : α → α → Prop) (eq ne lt le gt ge : α → α → Except PyErr Bool) :
    Prop where
  /-- `==` and `!=` test sameness. -/
  eq_spec : ∀ x y, comparable x y → (same x y → eq x y = .ok true ∧ ne x y = .ok false) ∧
    (¬ same x y → eq x y = .ok false ∧ ne x y = .ok true)
  /-- Exactly one of `<`, `==`, `>` holds. -/
  trichotomy : ∀ x y, comparable x y →
    (lt x y = .ok true ∧ eq x y = .ok false ∧ gt x y = .ok false) ∨
    (lt x y = .ok false ∧ eq x y = .ok true ∧ gt x y = .ok false) ∨
    (lt x y = .ok false ∧ eq x y = .ok false ∧ gt x y = .ok true)
  /-- `>` is `<` with the arguments exchanged. -/
  gt_spec : ∀ x y, comparable x y → gt x y = lt y x
  trans : ∀ x y z, comparable x y → comparable y z → lt x y = .ok true → lt y z = .ok true → lt x z = .ok true
  /-- `<=` is "not greater", `>=` is "not smaller". -/
  le_spec : ∀ x y, comparable x y → ∃ b, gt x y = .ok b ∧ le x y = .ok (!b)
  ge_spec : ∀ x y, comparable x y → ∃ b, lt x y = .ok b ∧ ge x y = .ok (!b)
  /-- Comparing objects of different kinds fails. -/
  error_spec : ∀ x y, ¬ comparable x y → eq x y = .error .typeError ∧ ne x y = .error .typeError ∧
    lt x y = .error .typeError ∧ le x y = .error .typeError ∧ gt x y = .error .typeError ∧ ge x y = .error .typeError

end Dsrg
