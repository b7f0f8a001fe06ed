import Verif.Model.MoSpace

/-!
Specification of the orbital spaces, independent of the tables in the code: every orbital is core, active or virtual
and has a spin; a label stands for a union of such classes.
-/

namespace Dsrg

/-- The three disjoint classes of orbitals. -/
inductive Elem
  | core | active | virt
  deriving DecidableEq, Repr

instance : Fintype Elem := ⟨{.core, .active, .virt}, by intro k; cases k <;> decide⟩

/-- What each letter stands for: c core, a active, v virtual, h hole (core or active), p particle (active or virtual),
g general (any). -/
def Kind.Denotes (k : Kind) (e : Elem) : Prop :=
  match k, e with
  | .c, .core => True
  | .a, .active => True
  | .v, .virt => True
  | .h, .core => True
  | .h, .active => True
  | .p, .active => True
  | .p, .virt => True
  | .g, _ => True
  | _, _ => False

instance (k : Kind) (e : Elem) : Decidable (k.Denotes e) := by
  cases k <;> cases e <;> unfold Kind.Denotes <;> infer_instance

/-- The letter of an elementary class. -/
def Elem.kind : Elem → Kind
  | .core => .c
  | .active => .a
  | .virt => .v

/-- The order of the labels documented in the code: `g p h v c a` then `G P H V C A`. -/
def labelOrder : List Char := ['g', 'p', 'h', 'v', 'c', 'a', 'G', 'P', 'H', 'V', 'C', 'A']

end Dsrg
