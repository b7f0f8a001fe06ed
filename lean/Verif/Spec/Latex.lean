import Verif.Model.Combine
import Verif.Model.Format
import Verif.Spec.TermValue
import Mathlib.Data.List.Permutation

/-!
Formulas as they are printed: a fraction, operators `P(ij/k)` that antisymmetrize the labels of the second-quantized operator, a product
of tensors and a second-quantized operator.
-/

namespace Dsrg

/-- A formula of the form `1/4 P(ij/k) P(a/b) X Y a^{..}_{..}`.  The operator is left out in formulas without one. -/
structure LatexFormula where
  coeff : ℚ
  perms : List (List (List Index))
  factors : List Tensor
  op : Option (List Index × List Index)

/-- Words separated by `sep`. -/
def separated (sep : PyStr) : List PyStr → PyStr
  | [] => []
  | [w] => w
  | w :: ws => w ++ sep ++ separated sep ws

/-- Labels as in `c_{0} a_{1}`. -/
def labelsText (l : List Index) : PyStr := separated [' '] (l.map fun i => [i.space.toChar] ++ ['_', '{'] ++ natStr i.number ++ ['}'])

/-- Upper and lower labels as in `^{ c_{0} }_{ a_{1} }`. -/
def scriptsText (u l : List Index) : PyStr := ['^', '{', ' '] ++ labelsText u ++ [' ', '}', '_', '{', ' '] ++ labelsText l ++ [' ', '}']

/-- `{\cal P} ( i j / k )`. -/
def antisymText (p : List (List Index)) : PyStr := ['{', '\\', 'c', 'a', 'l', ' ', 'P', '}', ' ', '(', ' '] ++ separated [' ', '/', ' '] (p.map labelsText) ++ [' ', ')']

/-- The text of a formula; `&` is put after the fraction if `delimiter` is set. -/
def LatexFormula.text (F : LatexFormula) (delimiter : Bool) : PyStr :=
  (if F.coeff.den = 1 then intStr F.coeff.num else intStr F.coeff.num ++ ['/'] ++ natStr F.coeff.den) ++
    (if delimiter then [' ', '&'] else []) ++
    (F.perms.map fun p => ' ' :: antisymText p).flatten ++
    ' ' :: separated [' '] (F.factors.map fun x => x.name ++ scriptsText x.upper.list x.lower.list) ++
    match F.op with
    | none => []
    | some (u, l) => [' ', 'a'] ++ scriptsText u l

/-- The number of pairs of labels that stand in `u` in the other order than in `l`. -/
def reversals (l : List Index) : List Index → Nat
  | [] => 0
  | a :: u => u.countP (fun b => decide (l.idxOf b < l.idxOf a)) + reversals l u

/-- `P(ij/k)` on the labels `l`: all orders of these labels that keep the order of `i` and `j`.  Without a `P` for these labels only the
order `l`. -/
def LatexFormula.orders (F : LatexFormula) (l : List Index) : Finset (List Index) :=
  match F.perms.find? fun p => decide (p.flatten.Perm l) with
  | none => {l}
  | some p => l.permutations.toFinset.filter fun l' => ∀ g ∈ p, g.Sublist l'

section
variable {O R M : Type} [Fintype O] [DecidableEq O] [Inhabited O] [CommRing R] [Algebra ℚ R] [AddCommGroup M] [Module R M]

/-- The meaning of a formula: the product of the tensors and the operator, summed over all orders of the upper and lower labels of the
operator with the sign of the order, and over all orbitals. -/
def LatexFormula.meaning (F : LatexFormula) (orb : Orbitals O) (I : Interp O R M) : M :=
  let ul := F.op.getD ([], [])
  ∑ u ∈ F.orders ul.1, ∑ l ∈ F.orders ul.2, ((-1 : ℤ) ^ (reversals ul.1 u + reversals ul.2 l)) • (algebraMap ℚ R F.coeff) •
    ∑ σ ∈ orb.assignments (ul.1 ++ ul.2 ++ F.factors.flatMap fun t => t.upper.list ++ t.lower.list).toFinset,
      I.pval (extendTo σ) F.factors • I.op (u.map (extendTo σ)) (l.map (extendTo σ))

end

/-- A text with the optional line end `\\\\`, in dollars or not. -/
def decorated (dollar backslash : Bool) (s : PyStr) : PyStr :=
  let s := if backslash then s ++ [' ', '\\', '\\'] else s
  if dollar then '$' :: (s ++ ['$']) else s

/-- Rows of an `align` environment are separated by `\\`. -/
def alignText (rows : List PyStr) : PyStr :=
  ['\\', 'b', 'e', 'g', 'i', 'n', '{', 'a', 'l', 'i', 'g', 'n', '}', '\n'] ++ separated [' ', '\\', '\\', '\n'] rows ++ ['\n', '\\', 'e', 'n', 'd', '{', 'a', 'l', 'i', 'g', 'n', '}', '\n', '\n']

end Dsrg
