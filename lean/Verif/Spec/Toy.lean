import Verif.Spec.TermValue

/-!
Small worlds used in examples and counterexamples.
-/

namespace Dsrg

/-- A factor with spin-orbital labels. -/
def soTensor (cls : TCls) (name : Char) (prio : Int) (u l : List Index) : Tensor :=
  ⟨cls, [name], prio, ⟨⟨.spinOrbital, u⟩, ⟨.spinOrbital, l⟩⟩⟩

/-- An operator string with spin-orbital labels. -/
def soOp (u l : List Index) : SqOp := ⟨⟨.spinOrbital, u⟩, ⟨.spinOrbital, l⟩⟩

/-- The label of kind `k` and number `n` (alpha). -/
def lab (k : Kind) (n : Nat) : Index := ⟨⟨k, false⟩, n⟩

/-- Two active orbitals. -/
def twoActive : Orbitals (Fin 2) := ⟨fun _ => .active, fun _ => false⟩

/-- Orbital 0 is core, orbital 1 active. -/
def coreActive : Orbitals (Fin 2) := ⟨fun o => if o = 0 then .core else .active, fun _ => false⟩

/-- Deltas are deltas, the one-body density is the delta, densities of more bodies are one on active orbitals, amplitudes
vanish on active orbitals, and everything else is one. -/
def toy (orb : Orbitals (Fin 2)) : Interp (Fin 2) ℚ ℚ where
  tensor cls _ u l := match cls, u, l with
    | .kronecker, [a], [b] => if a = b then 1 else 0
    | .hole, [_], [_] => 0
    | .cumulant, [a], [b] => if a = b then 1 else 0
    | .cumulant, u, l => if (u ++ l).all fun o => decide (orb.elem o = .active) then 1 else 0
    | .cluster, u, l => if (u ++ l).all fun o => decide (orb.elem o = .active) then 0 else 1
    | _, _, _ => 1
  op _ _ := 1

end Dsrg
