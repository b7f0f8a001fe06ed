import Verif.Spec.Hermitian
import Verif.Props.OpenWindow
import Verif.Props.Commutators
import Verif.Props.Connected

/-!
The transformed Hamiltonian is Hermitian in the unitary formalism: C107.
-/

namespace Dsrg

section
variable {O R A : Type} [Fintype O] [DecidableEq O] [Inhabited O] [CommRing R] [Algebra ℚ R] [Ring A] [Algebra R A]

variable {I : Interp O R A} {conj : A →ₗ[R] A}

omit [Inhabited O] in
theorem hamiltonianPart_conj (hc : I.Conjugation conj) (hH : I.SymmetricHamiltonian) (S : Finset O) (k : Nat) :
    conj (I.hamiltonianPart S k) = I.hamiltonianPart S k := by
  unfold Interp.hamiltonianPart
  simp only [map_smul, map_sum, hc.op]
  rw [Finset.sum_comm]
  congr 1
  refine Finset.sum_congr rfl fun u _ => Finset.sum_congr rfl fun l _ => ?_
  rw [hH]

omit [Inhabited O] in
theorem excitation_conj (hc : I.Conjugation conj) (orb : Orbitals O) (singleRef : Bool) (k : Nat) :
    conj (I.excitation orb singleRef k) = I.deexcitation orb singleRef k := by
  unfold Interp.excitation Interp.deexcitation
  simp only [map_smul, map_sum, hc.op]

omit [Inhabited O] in
theorem deexcitation_conj (hc : I.Conjugation conj) (orb : Orbitals O) (singleRef : Bool) (k : Nat) :
    conj (I.deexcitation orb singleRef k) = I.excitation orb singleRef k := by
  unfold Interp.excitation Interp.deexcitation
  simp only [map_smul, map_sum, hc.op]

omit [Inhabited O] in
theorem generator_conj (hc : I.Conjugation conj) (orb : Orbitals O) (singleRef : Bool) (levels : List Nat) :
    conj (I.generator orb singleRef true levels) = - I.generator orb singleRef true levels := by
  unfold Interp.generator
  simp only [if_true, map_sub, map_list_sum, List.map_map, neg_sub]
  congr 2 <;> refine List.map_congr_left fun k _ => ?_
  · exact excitation_conj hc orb singleRef k
  · exact deexcitation_conj hc orb singleRef k

omit [Fintype O] [DecidableEq O] [Inhabited O] [Algebra ℚ R] in
theorem commutator_conj (hc : I.Conjugation conj) {x y : A} (hx : conj x = x) (hy : conj y = - y) : conj (x * y - y * x) = x * y - y * x := by
  rw [map_sub, hc.mul, hc.mul, hx, hy]
  noncomm_ring

omit [Fintype O] [DecidableEq O] [Inhabited O] [Algebra ℚ R] in
theorem nestedCommutator_conj (hc : I.Conjugation conj) {x y : A} (hx : conj x = x) (hy : conj y = - y) :
    ∀ n, conj (nestedCommutator x y n) = nestedCommutator x y n
  | 0 => hx
  | n + 1 => commutator_conj hc (nestedCommutator_conj hc hx hy n) hy

omit [Fintype O] [DecidableEq O] [Inhabited O] in
theorem truncatedCommutator_conj (hc : I.Conjugation conj) {P : Nat → A →ₗ[R] A} {x y : A} (hx : conj x = x) (hy : conj y = - y) :
    ∀ n, (∀ j < n, ∀ z, conj (P j z) = P j (conj z)) → conj (truncatedCommutator P x y n) = truncatedCommutator P x y n
  | 0, _ => hx
  | n + 1, hP => by
    rw [truncatedCommutator, hP n (by omega), map_smul,
      commutator_conj hc (truncatedCommutator_conj hc hx hy n fun j hj => hP j (by omega)) hy]

/-! ### C107 -/

omit [Fintype O] [Inhabited O] [Algebra ℚ R] in
/-- Dropping normal-ordered strings by the number of their operators commutes with Hermitian conjugation. -/
theorem truncates_conj (hc : I.Conjugation conj) (hs : I.Spans) {P : A →ₗ[R] A} {maxOpen minOpen : Int} (h : I.Truncates P maxOpen minOpen) (x : A) :
    conj (P x) = P (conj x) := by
  have hx : x ∈ Submodule.span R (Set.range fun p : List O × List O => I.op p.1 p.2) := by rw [hs]; trivial
  induction hx using Submodule.span_induction with
  | mem x hx =>
    obtain ⟨⟨u, l⟩, rfl⟩ := hx
    simp only
    rw [hc.op]
    by_cases hw : minOpen ≤ (u.length + l.length : Nat) ∧ ((u.length + l.length : Nat) : Int) ≤ maxOpen
    · rw [h.2 u l hw.1 hw.2, h.2 l u (by rw [Nat.add_comm]; exact hw.1) (by rw [Nat.add_comm]; exact hw.2), hc.op]
    · rw [h.1 u l hw, h.1 l u (by rw [Nat.add_comm]; exact hw), map_zero]
  | zero => simp
  | add x y _ _ h1 h2 => simp only [map_add, h1, h2]
  | smul a x _ h1 => simp only [map_smul, h1]

/-- C107 (`bch_cc_rsc`): in the unitary formalism the terms of every level add up to a Hermitian operator, for all limits on cumulants and on the
number of open labels. -/
theorem C107_bch_cc_rsc (m : Machine) (hcanon : CanonContract m.canon) (hord : m.ord.Lawful) (o : Options) (levels : List Nat) (K : Nat)
    (hK : levels.max? = some K) (singleRef : Bool) (limits : List (Int × Int × Int))
    (hsize : 4 * (K.factorial ^ 2) ^ limits.length * limits.length.factorial ≤ 10 ^ 15)
    (calls : List (List (Term × Term))) (outs : List (List Term)) (h : BchRun m o levels true singleRef limits calls outs)
    (orb : Orbitals O) (I : Interp O R A) (hI : I.SlotSymmetric true o.hermitian) (hph : I.Physical orb) (hac : I.ActiveCumulants orb)
    (hna : I.NoActiveAmplitudes orb) (field : Bool × O → A) (hfield : Fermions field) (hno : I.NormalOrdered field) (P : Nat → A →ₗ[R] A)
    (hP : ∀ j maxCu minOpen maxOpen, limits[j]? = some (maxCu, minOpen, maxOpen) →
      I.CumulantsUpTo maxCu ∧ minOpen ≤ 0 ∧ I.Truncates (P j) maxOpen minOpen)
    (conj : A →ₗ[R] A) (hc : I.Conjugation conj) (hs : I.Spans) (hH : I.SymmetricHamiltonian) (n : Nat) (hn : n ≤ limits.length) :
    ∃ out, outs[n]? = some out ∧
      conj (out.map fun t => I.value orb t.coeff t.tensors t.sqOp).sum = (out.map fun t => I.value orb t.coeff t.tensors t.sqOp).sum := by
  obtain ⟨out, h1, h2⟩ := C102_bch_cc_rsc m hcanon hord o levels K hK true singleRef limits hsize calls outs h orb I hI hph hac hna field hfield hno P hP n hn
  refine ⟨out, h1, ?_⟩
  rw [h2]
  refine truncatedCommutator_conj hc ?_ (generator_conj hc orb singleRef levels) n fun j hj z => ?_
  · rw [map_add, hamiltonianPart_conj hc hH, hamiltonianPart_conj hc hH]
  · obtain ⟨⟨mc, mn, mx⟩, hl⟩ : ∃ x, limits[j]? = some x := ⟨_, List.getElem?_eq_getElem (by omega)⟩
    exact truncates_conj hc hs (hP j mc mn mx hl).2.2 z

/-- C107 (`linear_commutator_amp`): in the unitary formalism the commutator of terms that add up to a Hermitian operator adds up to a Hermitian
operator. -/
theorem C107_linear_commutator_amp (m : Machine) (hcanon : CanonContract m.canon) (hord : m.ord.Lawful) (hcpu : 1 ≤ m.cpus) (o : Options)
    (lefts : List Term) (hl : ∀ l ∈ lefts, LibraryTerm m l) (levels : List Nat) (start : Nat)
    (hstart : ∀ l ∈ lefts, ∀ i ∈ labelsOf l.tensors l.sqOp, i.number < start) (singleRef : Bool) (scale c : ℚ)
    (hsize : 1 / 10 ^ 15 ≤ |c|) (hcoeff : ∀ l ∈ lefts, ∀ k ∈ levels, ∃ n : ℤ, scale * (l.coeff * (1 / (k.factorial : ℚ) ^ 2)) = n * c) (out : List Term)
    (h : LinearCommutatorAmpRun m o lefts levels start true singleRef scale out)
    (orb : Orbitals O) (I : Interp O R A) (hI : I.SlotSymmetric true o.hermitian) (hph : I.Physical orb) (hac : I.ActiveCumulants orb)
    (hna : I.NoActiveAmplitudes orb) (field : Bool × O → A) (hfield : Fermions field) (hno : I.NormalOrdered field)
    (hcu : I.CumulantsUpTo o.maxCu) (hmin : o.minOpen ≤ 0)
    (hmax : ∀ l ∈ lefts, ∀ k ∈ levels, ((nOperators [l.sqOp] + 2 * k : Nat) : Int) ≤ o.maxOpen + 2)
    (conj : A →ₗ[R] A) (hc : I.Conjugation conj)
    (hleft : conj (lefts.map fun t => I.value orb t.coeff t.tensors t.sqOp).sum = (lefts.map fun t => I.value orb t.coeff t.tensors t.sqOp).sum) :
    conj (out.map fun t => I.value orb t.coeff t.tensors t.sqOp).sum = (out.map fun t => I.value orb t.coeff t.tensors t.sqOp).sum := by
  rw [C81_linear_commutator_amp m hcanon hord hcpu o lefts hl levels start hstart true singleRef scale c hsize hcoeff out h orb I hI hph hac hna field
    hfield hno hcu hmin hmax, map_smul, commutator_conj hc hleft (generator_conj hc orb singleRef levels)]

/-- C107 (`nested_commutator_cc`): in the unitary formalism the terms add up to a Hermitian operator, for all contractions, or for connected
contractions and at most two commutators. -/
theorem C107_nested_commutator_cc (m : Machine) (hcanon : CanonContract m.canon) (hord : m.ord.Lawful) (o : Options)
    (n : Nat) (hn : 1 ≤ n) (hf : o.forCommutator = false ∨ n ≤ 2) (levels : List Nat) (K : Nat) (hK : ∀ k ∈ levels, 1 ≤ k ∧ k ≤ K)
    (hsize : n.factorial * (4 * (K.factorial ^ 2) ^ n) ≤ 10 ^ 15) (singleRef : Bool)
    (expansion : List (ℤ × List OpName)) (calls : List (List Term × ℚ)) (out : List Term)
    (h : NestedRun m o n levels true singleRef expansion calls out)
    (orb : Orbitals O) (I : Interp O R A) (hI : I.SlotSymmetric true o.hermitian) (hph : I.Physical orb) (hac : I.ActiveCumulants orb)
    (hna : I.NoActiveAmplitudes orb) (field : Bool × O → A) (hfield : Fermions field) (hno : I.NormalOrdered field)
    (hcu : I.CumulantsUpTo o.maxCu) (hmin : o.minOpen ≤ 0) (hmax : ((4 + 2 * K * n : Nat) : Int) ≤ o.maxOpen)
    (conj : A →ₗ[R] A) (hc : I.Conjugation conj) (hH : I.SymmetricHamiltonian) :
    conj (out.map fun t => I.value orb t.coeff t.tensors t.sqOp).sum = (out.map fun t => I.value orb t.coeff t.tensors t.sqOp).sum := by
  have key : (out.map fun t => I.value orb t.coeff t.tensors t.sqOp).sum =
      algebraMap ℚ R (1 / (n.factorial : ℚ)) • nestedCommutator
        (I.hamiltonianPart (Finset.univ.filter fun o => orb.spin o = false) 1 + I.hamiltonianPart (Finset.univ.filter fun o => orb.spin o = false) 2)
        (I.generator orb singleRef true levels) n := by
    cases hfc : o.forCommutator with
    | false =>
      exact C80_nested_partial m hcanon hord o hfc n hn levels K hK hsize true singleRef expansion calls out h orb I hI hph hac hna field hfield hno hcu
        hmin hmax
    | true =>
      have h2 : n ≤ 2 := by
        rcases hf with hf | hf
        · rw [hfc] at hf; cases hf
        · exact hf
      exact C80_nested_connected_partial m hcanon hord o hfc n hn levels K hK hsize true singleRef (Or.inl h2) expansion calls out h orb I hI hph hac hna
        field hfield hno hcu hmin (by omega)
  rw [key, map_smul, nestedCommutator_conj hc _ (generator_conj hc orb singleRef levels)]
  rw [map_add, hamiltonianPart_conj hc hH, hamiltonianPart_conj hc hH]

end

/-! ### The hypotheses can be met -/

/-- The transposition of matrices. -/
def transposition : Matrix (Fin 4) (Fin 4) ℚ →ₗ[ℚ] Matrix (Fin 4) (Fin 4) ℚ := (Matrix.transposeLinearEquiv (Fin 4) (Fin 4) ℚ ℚ).toLinearMap

theorem fockSpace_conjugation : fockSpace.Conjugation transposition := by
  obtain ⟨w1, w2, -⟩ := fockSpace_world
  refine ⟨fun x y => Matrix.transpose_mul x y, fun u l => ?_⟩
  by_cases hn : u.Nodup ∧ l.Nodup
  · have key : ∀ u ∈ [[], [0], [1], [0, 1], [1, 0]], ∀ l ∈ [[], [0], [1], [0, 1], [1, 0]],
        (fockSpace.op u l).transpose = fockSpace.op l u := by
      decide +kernel
    exact key u (nodup_two u hn.1) l (nodup_two l hn.2)
  · rw [op_repeated (w1.1 rfl) (w2.hole _) twoFermions_fermions fockSpace_normalOrdered hn,
      op_repeated (w1.1 rfl) (w2.hole _) twoFermions_fermions fockSpace_normalOrdered (fun h => hn ⟨h.2, h.1⟩), map_zero]

/-- Matrices with one entry as combinations of normal-ordered strings. -/
def entryStrings (i j : Fin 4) : List (ℚ × List (Fin 2) × List (Fin 2)) :=
  match i.1, j.1 with
  | 3, 0 => [(1, [0, 1], [])]
  | 2, 0 => [(1, [0, 1], [0])]
  | 3, 2 => [(1, [0, 1], [1])]
  | 2, 2 => [(-1, [0, 1], [0, 1])]
  | 2, 1 => [(1, [1], [0])]
  | 2, 3 => [(1, [1], [0, 1])]
  | 0, 2 => [(1, [0], [0, 1])]
  | 0, 3 => [(1, [], [0, 1])]
  | 1, 2 => [(1, [0], [1])]
  | 1, 0 => [(1, [0], []), (-1, [0, 1], [1])]
  | 3, 1 => [(1, [0, 1], [0]), (-1, [1], [])]
  | 0, 1 => [(1, [], [0]), (-1, [1], [0, 1])]
  | 1, 3 => [(1, [0], [0, 1]), (-1, [], [1])]
  | 3, 3 => [(1, [1], [1]), (1, [0, 1], [0, 1])]
  | 0, 0 => [(-1, [0], [0]), (1, [0, 1], [0, 1])]
  | _, _ => [(1, [], []), (1, [0], [0]), (-1, [1], [1]), (-1, [0, 1], [0, 1])]

theorem fockSpace_spans : fockSpace.Spans := by
  have key : ∀ i j : Fin 4, ((entryStrings i j).map fun p => p.1 • fockSpace.op p.2.1 p.2.2).sum = Matrix.single i j 1 := by decide +kernel
  unfold Interp.Spans
  rw [eq_top_iff]
  rintro x -
  rw [Matrix.matrix_eq_sum_single x]
  refine Submodule.sum_mem _ fun i _ => Submodule.sum_mem _ fun j _ => ?_
  have e : Matrix.single i j (x i j) = x i j • Matrix.single i j (1 : ℚ) := by rw [Matrix.smul_single, smul_eq_mul, mul_one]
  rw [e, ← key]
  refine Submodule.smul_mem _ _ (list_sum_mem fun y hy => ?_)
  obtain ⟨p, -, rfl⟩ := List.mem_map.1 hy
  exact Submodule.smul_mem _ _ (Submodule.subset_span ⟨p.2, rfl⟩)

/-- The hypotheses of C107 can be met: two levels with one-body amplitudes, the first of which is cut off; the operators do not vanish. -/
theorem C107_example : ∃ (o : Options) (calls : List (List (Term × Term))) (outs : List (List Term))
    (P : Nat → Matrix (Fin 4) (Fin 4) ℚ →ₗ[ℚ] Matrix (Fin 4) (Fin 4) ℚ),
    BchRun exMachine o [1] true false [(1, 0, 0), (1, 0, 4)] calls outs ∧
    (∀ j maxCu minOpen maxOpen, [((1 : Int), (0 : Int), (0 : Int)), (1, 0, 4)][j]? = some (maxCu, minOpen, maxOpen) →
      fockSpace.CumulantsUpTo maxCu ∧ minOpen ≤ 0 ∧ fockSpace.Truncates (P j) maxOpen minOpen) ∧
    fockSpace.SlotSymmetric true o.hermitian ∧ fockSpace.Physical coreVirtual ∧ fockSpace.ActiveCumulants coreVirtual ∧
    fockSpace.NoActiveAmplitudes coreVirtual ∧ Fermions twoFermions ∧ fockSpace.NormalOrdered twoFermions ∧
    fockSpace.Conjugation transposition ∧ fockSpace.Spans ∧ fockSpace.SymmetricHamiltonian ∧
    nestedCommutator
      (fockSpace.hamiltonianPart (Finset.univ.filter fun o => coreVirtual.spin o = false ∧ coreVirtual.elem o ≠ .active) 1 +
        fockSpace.hamiltonianPart (Finset.univ.filter fun o => coreVirtual.spin o = false ∧ coreVirtual.elem o ≠ .active) 2)
      (fockSpace.generator coreVirtual false true [1]) 1 ≠ 0 := by
  obtain ⟨o, calls, outs, P, h1, h2, h3, h4, h5, h6, h7, h8, -, -⟩ := C102_example
  obtain ⟨w1, -⟩ := fockSpace_world
  exact ⟨o, calls, outs, P, h1, h2, h3, h4, h5, h6, h7, h8, fockSpace_conjugation, fockSpace_spans, fun u l => w1.2.2 rfl _ _ _ _, by decide +kernel⟩

end Dsrg
