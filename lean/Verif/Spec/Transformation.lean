import Verif.Spec.Wick
import Verif.Spec.NestedValue

/-!
The Hamiltonian, the amplitudes and their nested commutators as operators, without labels.
-/

namespace Dsrg

section
variable {O R M : Type} [Fintype O] [DecidableEq O] [Inhabited O] [CommRing R] [Algebra ℚ R] [AddCommGroup M] [Module R M]

/-- The orbitals that amplitudes take electrons from: core orbitals and, unless the reference is one determinant, active orbitals. -/
def Orbitals.holes (orb : Orbitals O) (singleRef : Bool) : Finset O :=
  Finset.univ.filter fun o => orb.spin o = false ∧ (orb.elem o = .core ∨ (singleRef = false ∧ orb.elem o = .active))

/-- The orbitals that amplitudes put electrons into: virtual orbitals and, unless the reference is one determinant, active orbitals. -/
def Orbitals.particles (orb : Orbitals O) (singleRef : Bool) : Finset O :=
  Finset.univ.filter fun o => orb.spin o = false ∧ (orb.elem o = .virt ∨ (singleRef = false ∧ orb.elem o = .active))

/-- The `k`-body part of the Hamiltonian with orbitals in `S`: `1 / (k!)² ∑ H^{u}_{l} a^{l}_{u}`. -/
def Interp.hamiltonianPart (I : Interp O R M) (S : Finset O) (k : Nat) : M :=
  algebraMap ℚ R (1 / (k.factorial : ℚ) ^ 2) • ∑ u ∈ Fintype.piFinset fun _ : Fin k => S, ∑ l ∈ Fintype.piFinset fun _ : Fin k => S,
    I.tensor .hamiltonian ['H'] (List.ofFn u) (List.ofFn l) • I.op (List.ofFn l) (List.ofFn u)

/-- The `k`-body excitation operator: `1 / (k!)² ∑ T^{h}_{p} a^{p}_{h}`. -/
def Interp.excitation (I : Interp O R M) (orb : Orbitals O) (singleRef : Bool) (k : Nat) : M :=
  algebraMap ℚ R (1 / (k.factorial : ℚ) ^ 2) • ∑ h ∈ Fintype.piFinset fun _ : Fin k => orb.holes singleRef,
    ∑ p ∈ Fintype.piFinset fun _ : Fin k => orb.particles singleRef,
      I.tensor .cluster ['T'] (List.ofFn h) (List.ofFn p) • I.op (List.ofFn p) (List.ofFn h)

/-- The conjugate of the `k`-body excitation operator: `1 / (k!)² ∑ T^{h}_{p} a^{h}_{p}`. -/
def Interp.deexcitation (I : Interp O R M) (orb : Orbitals O) (singleRef : Bool) (k : Nat) : M :=
  algebraMap ℚ R (1 / (k.factorial : ℚ) ^ 2) • ∑ h ∈ Fintype.piFinset fun _ : Fin k => orb.holes singleRef,
    ∑ p ∈ Fintype.piFinset fun _ : Fin k => orb.particles singleRef,
      I.tensor .cluster ['T'] (List.ofFn h) (List.ofFn p) • I.op (List.ofFn h) (List.ofFn p)

/-- The generator of the transformation: `∑ T_k`, or `∑ T_k - T_k†` in the unitary formalism. -/
def Interp.generator (I : Interp O R M) (orb : Orbitals O) (singleRef unitary : Bool) (levels : List Nat) : M :=
  (levels.map fun k => I.excitation orb singleRef k).sum - if unitary then (levels.map fun k => I.deexcitation orb singleRef k).sum else 0

end

/-- `[…[[x, y], y]…, y]` with `n` commutators. -/
def nestedCommutator {A : Type} [Ring A] (x y : A) : Nat → A
  | 0 => x
  | n + 1 => nestedCommutator x y n * y - y * nestedCommutator x y n

/-- Limits `(max_cu, (min_n_open, max_n_open))` of the levels that cut off nothing but uncontracted products, when the terms of the level
before have at most `n` operators and the amplitudes at most `K` bodies. -/
def WideLimits {O R M : Type} [DecidableEq O] [CommRing R] (I : Interp O R M) (K : Nat) : Nat → List (Int × Int × Int) → Prop
  | _, [] => True
  | n, (maxCu, minOpen, maxOpen) :: rest => I.CumulantsUpTo maxCu ∧ minOpen ≤ 0 ∧ ((n + 2 * K : Nat) : Int) ≤ maxOpen + 2 ∧
    WideLimits I K (min maxOpen (n + 2 * K : Nat)).toNat rest

/-- `[…[[x, y₁], y₂]…, yₖ]`. -/
def leftCommutator {A : Type} [Ring A] (x : A) (ys : List A) : A := ys.foldl (fun z y => z * y - y * z) x

/-- Limits `(max_cu, (min_n_open, max_n_open))` given with the right terms of nested commutators, that cut off nothing but uncontracted
products, when the terms of the level before have at most `n` operators. -/
def WideLevels {O R M : Type} [DecidableEq O] [CommRing R] (I : Interp O R M) : Nat → List (Term × Int × Int × Int) → Prop
  | _, [] => True
  | n, (right, maxCu, minOpen, maxOpen) :: rest => I.CumulantsUpTo maxCu ∧ minOpen ≤ 0 ∧
    ((n + (right.sqOp.upper.list.length + right.sqOp.lower.list.length) : Nat) : Int) ≤ maxOpen + 2 ∧
    WideLevels I (min maxOpen (n + (right.sqOp.upper.list.length + right.sqOp.lower.list.length) : Nat)).toNat rest

end Dsrg
