import Verif.Spec.ForteText
import Verif.Spec.DirectT3

/-!
Reading the function for three-body amplitudes.
-/

namespace Dsrg

/-- `BlockedTensor name = ambit::BlockedTensor::build(ambit::CoreTensor, "...", {"spaces"})`: the name and the block. -/
def readLocal (l : List PyStr) : Option (PyStr × List Space) :=
  match l with
  | [ty, n, e, a, c1, c2, t, c3, c4, b, o, a', c5, c6, k, m, s, m', br, u, br', p] =>
    if ty = tensorWord ∧ isName n ∧ e = ['='] ∧ a = ['a', 'm', 'b', 'i', 't'] ∧ c1 = [':'] ∧ c2 = [':'] ∧ t = tensorWord ∧ c3 = [':'] ∧ c4 = [':'] ∧
        b = ['b', 'u', 'i', 'l', 'd'] ∧ o = ['('] ∧ a' = ['a', 'm', 'b', 'i', 't'] ∧ c5 = [':'] ∧ c6 = [':'] ∧
        k = ['C', 'o', 'r', 'e', 'T', 'e', 'n', 's', 'o', 'r'] ∧ m = [','] ∧ (unquote s).isSome ∧ m' = [','] ∧ br = ['{'] ∧ br' = ['}'] ∧ p = [')'] then do
      let spaces ← (← unquote u).mapM readSpace
      pure (n, spaces)
    else none
  | _ => none

/-- A sum `Fd[i[k]] + Fd[i[l]] - ...`: the signs and the numbers. -/
def readDelta (plus : Bool) : List PyStr → Option (List (Bool × Nat))
  | a :: b :: c :: d :: n :: e :: f :: rest =>
    if a = ['F', 'd'] ∧ b = ['['] ∧ c = ['i'] ∧ d = ['['] ∧ e = [']'] ∧ f = [']'] then do
      let k ← readNat n
      match rest with
      | [] => pure [(plus, k)]
      | s :: rest =>
        if s = ['+'] then do pure ((plus, k) :: (← readDelta true rest))
        else if s = ['-'] then do pure ((plus, k) :: (← readDelta false rest))
        else none
    else none
  | _ => none

/-- The difference of the diagonal Fock elements of six orbitals, `tripleDelta`. -/
def isTripleDelta (l : List PyStr) : Bool :=
  decide (readDelta true l = some [(true, 0), (true, 1), (true, 2), (false, 3), (false, 4), (false, 5)])

/-- `( [ & ] (const std::vector<size_t>& i, const std::vector<SpinType>&, double& value) {`: the arguments of a function that is applied to every
element of an array. -/
def lambdaWords : List PyStr :=
  [['('], ['['], ['&'], [']'], ['('], ['c', 'o', 'n', 's', 't'], ['s', 't', 'd'], [':'], [':'], ['v', 'e', 'c', 't', 'o', 'r'], ['<'],
   ['s', 'i', 'z', 'e', '_', 't'], ['>'], ['&'], ['i'], [','], ['c', 'o', 'n', 's', 't'], ['s', 't', 'd'], [':'], [':'], ['v', 'e', 'c', 't', 'o', 'r'],
   ['<'], ['S', 'p', 'i', 'n', 'T', 'y', 'p', 'e'], ['>'], ['&'], [','], doubleWord, ['&'], ['v', 'a', 'l', 'u', 'e'], [')'], ['{']]

/-- `name.iterate(...{ statement`: the name and the words of the statement. -/
def readIterate (l : List PyStr) : Option (PyStr × List PyStr) :=
  match l with
  | w :: rest =>
    match cutAt '.' w with
    | [n, it] =>
      if isName n ∧ it = ['i', 't', 'e', 'r', 'a', 't', 'e'] ∧ rest.take lambdaWords.length = lambdaWords then some (n, rest.drop lambdaWords.length) else none
    | _ => none
  | [] => none

/-- `value *= renormalized_denominator(delta)`. -/
def isRenormalize (l : List PyStr) : Bool :=
  decide (l.take 5 = [['v', 'a', 'l', 'u', 'e'], ['*'], ['='],
    ['r', 'e', 'n', 'o', 'r', 'm', 'a', 'l', 'i', 'z', 'e', 'd', '_', 'd', 'e', 'n', 'o', 'm', 'i', 'n', 'a', 't', 'o', 'r'], ['(']]) &&
  decide (l.getLast? = some [')']) && isTripleDelta (l.drop 5).dropLast

/-- `double delta = ...`. -/
def isDefineDelta (l : List PyStr) : Bool :=
  decide (l.take 3 = [doubleWord, ['d', 'e', 'l', 't', 'a'], ['=']]) && isTripleDelta (l.drop 3)

/-- `value *= std::exp(-s_ * delta * delta)`. -/
def dampWords : List PyStr :=
  [['v', 'a', 'l', 'u', 'e'], ['*'], ['='], ['s', 't', 'd'], [':'], [':'], ['e', 'x', 'p'], ['('], ['-'], ['s', '_'], ['*'], ['d', 'e', 'l', 't', 'a'], ['*'],
   ['d', 'e', 'l', 't', 'a'], [')']]

/-- `name["ijkabc"]`. -/
def readWhole (l : List PyStr) : Option PyStr :=
  match l with
  | [n, a, s, b] => if isName n ∧ a = ['['] ∧ s = ['"', 'i', 'j', 'k', 'a', 'b', 'c', '"'] ∧ b = [']'] then some n else none
  | _ => none

/-- `X["ijkabc"] = Y["ijkabc"] + ...`, `X["ijkabc"] -= Y["ijkabc"]` and `rms_t3 = X.norm()`. -/
def readWholeStatement (l : List PyStr) : Option T3Stmt :=
  match cutAt ['='] l with
  | [lhs, rhs] =>
    if lhs = [['r', 'm', 's', '_', 't', '3']] then
      match rhs with
      | [w, o, c] =>
        match cutAt '.' w with
        | [n, nm] => if isName n ∧ nm = ['n', 'o', 'r', 'm'] ∧ o = ['('] ∧ c = [')'] then some (.rms n) else none
        | _ => none
      | _ => none
    else if lhs.getLast? = some ['-'] then do pure (.subtract (← readWhole lhs.dropLast) (← readWhole rhs))
    else do pure (.assign (← readWhole lhs) (← (cutAt ['+'] rhs).mapM readWhole))
  | _ => none

/-- `T3max = T3.norm(0), T3norm = T3.norm()`, which changes no array. -/
def normWords : List PyStr :=
  [['T', '3', 'm', 'a', 'x'], ['='], ['T', '3', '.', 'n', 'o', 'r', 'm'], ['('], ['0'], [')'], [','], ['T', '3', 'n', 'o', 'r', 'm'], ['='],
   ['T', '3', '.', 'n', 'o', 'r', 'm'], ['('], [')']]

/-- The statements after the expressions.  The body of a function that is applied to every element ends with `})`. -/
def readT3Update : List (List PyStr) → Option (List T3Stmt)
  | [] => none
  | s :: rest =>
    if s = normWords ∧ rest = [] then some []
    else match readWholeStatement s with
      | some st => do pure (st :: (← readT3Update rest))
      | none =>
        match readIterate s, rest with
        | some (n, first), e :: rest =>
          if isRenormalize first ∧ e = [['}'], [')']] then do pure (.renormalize n :: (← readT3Update rest))
          else match rest with
            | e' :: rest => if isDefineDelta first ∧ e = dampWords ∧ e' = [['}'], [')']] then do pure (.damp n :: (← readT3Update rest)) else none
            | [] => none
        | _, _ => none

/-- The function for three-body amplitudes: its parameters are arrays; the arrays `C3` and `temp` with the block `cccvvv` are local; then come updates of
arrays and the statements of the template. -/
def readDirectT3 (f : CppFunction) : Option DirectT3 :=
  match f.body with
  | c3 :: tmp :: rest =>
    if readLocal c3 = some (['C', '3'], [⟨.c, false⟩, ⟨.c, false⟩, ⟨.c, false⟩, ⟨.v, false⟩, ⟨.v, false⟩, ⟨.v, false⟩]) ∧
        readLocal tmp = some (['t', 'e', 'm', 'p'], [⟨.c, false⟩, ⟨.c, false⟩, ⟨.c, false⟩, ⟨.v, false⟩, ⟨.v, false⟩, ⟨.v, false⟩]) ∧
        ∀ p ∈ f.params, p.1 = tensorWord ++ ['&'] then do
      let body ← (rest.takeWhile fun l => (readStatement l).isSome).mapM readStatement
      let update ← readT3Update (rest.dropWhile fun l => (readStatement l).isSome)
      pure ⟨f.params.map Prod.snd, body, update⟩
    else none
  | _ => none

/-! ### Placeholders -/

/-- The placeholders of the template: `NAMESPACE`, `FUNC_NAME`, `FUNC_VARIABLES` and `CPP_EXPRESSIONS`. -/
def placeholders : List PyStr :=
  [['N', 'A', 'M', 'E', 'S', 'P', 'A', 'C', 'E'], ['F', 'U', 'N', 'C', '_', 'N', 'A', 'M', 'E'],
   ['F', 'U', 'N', 'C', '_', 'V', 'A', 'R', 'I', 'A', 'B', 'L', 'E', 'S'], ['C', 'P', 'P', '_', 'E', 'X', 'P', 'R', 'E', 'S', 'S', 'I', 'O', 'N', 'S']]

/-- No placeholder occurs in a name. -/
def NoPlaceholder (s : PyStr) : Prop := ∀ k ∈ placeholders, ¬ k <:+: s

instance (s : PyStr) : Decidable (NoPlaceholder s) := by unfold NoPlaceholder; infer_instance

end Dsrg
