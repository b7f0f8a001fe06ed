import Verif.Lemmas.ContractionPath
import Verif.Spec.Toy

/-!
Property theorems about contraction paths.
-/

namespace Dsrg

/-! ### C47 All contraction paths are explored and the cheapest is reported -/

theorem withLabels_leaf (ts : List Tensor) : (ts.map fun x => (tensorLabels x, CTree.leaf x)) = withLabels (ts.map CTree.leaf) := by
  unfold withLabels; rw [List.map_map]; rfl

theorem flatMap_leaf (ts : List Tensor) : (ts.map CTree.leaf).flatMap CTree.tensors = ts := by
  induction ts with
  | nil => rfl
  | cons t ts ih => simp [CTree.tensors, ih]

theorem forest_leaf (ts : List Tensor) : forestCompute (ts.map CTree.leaf) = scaling ∅ ∧ forestStorage (ts.map CTree.leaf) = scaling ∅ := by
  unfold forestCompute forestStorage
  induction ts with
  | nil => exact ⟨rfl, rfl⟩
  | cons t ts ih =>
    simp only [List.map_cons, List.foldr_cons, ih, CTree.compute, CTree.storage, max_self, and_self]

/-- The number of paths is `n! (n-1)! / 2^(n-1)` for `n ≥ 1` tensors. -/
theorem C47_number (t : Term) (n : Nat) (hn : t.tensors.length = n + 1) :
    t.contractionPaths.length * 2 ^ n = (n + 1).factorial * n.factorial := by
  unfold Term.contractionPaths
  rw [hn]
  exact contractionPath_length n _ _ (by simpa using hn)

/-- Every path is a way to multiply the tensors of the term two at a time, each tensor once, and it is reported with its own costs. -/
theorem C47_paths (t : Term) (hn : 2 ≤ t.tensors.length) (r : PathCost) (hr : r ∈ t.contractionPaths) :
    ∃ T : CTree, r.2.2 = some T ∧ T.Multiplies t.tensors ∧ r.1.Shows T.compute ∧ r.2.1.Shows T.storage := by
  obtain ⟨n, hlen⟩ : ∃ n, t.tensors.length = n + 2 := ⟨t.tensors.length - 2, by omega⟩
  have hinit : initialCost t.tensors = MOSpaceCounter.make [(⟨.v, false⟩, 0), (⟨.c, false⟩, 0)] := by
    unfold initialCost
    split
    · rename_i h; rw [h] at hn; simp at hn
    · rfl
  unfold Term.contractionPaths at hr
  rw [hlen, withLabels_leaf, hinit] at hr
  obtain ⟨T, h1, h2, h3⟩ := contractionPath_sound n (t.tensors.map CTree.leaf) _ (by simpa using hlen)
    (by rw [(forest_leaf _).1]; exact start_shows) (by rw [(forest_leaf _).2]; exact start_shows) r hr
  rw [flatMap_leaf] at h2
  exact ⟨T, h1, h2, h3⟩

/-- Every way to multiply the tensors two at a time is found, up to the order of the two sides of a contraction. -/
theorem C47_complete (t : Term) (hn : 2 ≤ t.tensors.length) (T : CTree) (hT : T.Multiplies t.tensors) :
    ∃ r ∈ t.contractionPaths, ∃ T' : CTree, r.2.2 = some T' ∧ CTree.Same T T' := by
  obtain ⟨n, hlen⟩ : ∃ n, t.tensors.length = n + 2 := ⟨t.tensors.length - 2, by omega⟩
  unfold Term.contractionPaths
  rw [hlen, withLabels_leaf]
  exact contractionPath_complete n (t.tensors.map CTree.leaf) _ T _ (by simpa using hlen) (Above.leaves T) (hT.map _)

/-- All ways end with the same open labels: those that occur in an odd number of tensors. -/
theorem C47_open (ts : List Tensor) (T : CTree) (hT : T.Multiplies ts) (i : Index) :
    i ∈ T.openLabels ↔ (ts.countP fun x => decide (i ∈ tensorLabels x)) % 2 = 1 := by
  rw [CTree.mem_openLabels, List.Perm.countP_eq _ hT]

/-- The reported costs are the smallest possible over all ways to multiply the tensors, and the reported paths attain them. -/
theorem C47_optimal (t : Term) (hn : 2 ≤ t.tensors.length) :
    ∃ c s T S, t.optimalContractionCost = (some (c, some T), some (s, some S)) ∧
      T.Multiplies t.tensors ∧ c.Shows T.compute ∧ (∀ U : CTree, U.Multiplies t.tensors → T.compute ≤ U.compute) ∧
      S.Multiplies t.tensors ∧ s.Shows S.storage ∧ (∀ U : CTree, U.Multiplies t.tensors → S.storage ≤ U.storage) := by
  have hne : t.contractionPaths ≠ [] := by
    have := C47_number t (t.tensors.length - 1) (by omega)
    intro h
    rw [h] at this
    simp only [List.length_nil, zero_mul] at this
    exact (Nat.mul_pos (Nat.factorial_pos _) (Nat.factorial_pos _)).ne this
  have hopt : t.optimalContractionCost =
      ((t.contractionPaths.map fun p => (p.1, p.2.2)).foldl keepBest none, (t.contractionPaths.map fun p => (p.2.1, p.2.2)).foldl keepBest none) := by
    unfold Term.optimalContractionCost
    split
    · rename_i h; rw [h] at hn; simp at hn
    · rw [List.foldl_map, List.foldl_map]
  obtain ⟨b, hb, e, hmin⟩ := keepBest_spec (t.contractionPaths.map fun p => (p.1, p.2.2)) (by simpa using hne)
  obtain ⟨b', hb', e', hmin'⟩ := keepBest_spec (t.contractionPaths.map fun p => (p.2.1, p.2.2)) (by simpa using hne)
  obtain ⟨r, hr, rfl⟩ := List.mem_map.1 hb
  obtain ⟨r', hr', rfl⟩ := List.mem_map.1 hb'
  obtain ⟨T, h1, h2, h3, _⟩ := C47_paths t hn r hr
  obtain ⟨S, g1, g2, _, g4⟩ := C47_paths t hn r' hr'
  refine ⟨r.1, r'.2.1, T, S, ?_, h2, h3, ?_, g2, g4, ?_⟩
  · rw [hopt, e, e']; simp only [h1, g1]
  · intro U hU
    obtain ⟨x, hx, T', hx1, hx2⟩ := C47_complete t hn U hU
    obtain ⟨T'', k1, _, k3, _⟩ := C47_paths t hn x hx
    rw [hx1] at k1
    cases k1
    have := hmin (x.1, x.2.2) (List.mem_map.2 ⟨x, hx, rfl⟩)
    rw [hx2.compute]
    by_contra hc
    rw [(shows_lt k3 h3).2 (not_le.1 hc)] at this
    exact absurd this (by decide)
  · intro U hU
    obtain ⟨x, hx, T', hx1, hx2⟩ := C47_complete t hn U hU
    obtain ⟨T'', k1, _, _, k4⟩ := C47_paths t hn x hx
    rw [hx1] at k1
    cases k1
    have := hmin' (x.2.1, x.2.2) (List.mem_map.2 ⟨x, hx, rfl⟩)
    rw [hx2.storage]
    by_contra hc
    rw [(shows_lt k4 g4).2 (not_le.1 hc)] at this
    exact absurd this (by decide)

/-- The factors `H^{v0 v1}_{c0 c1} T^{c0}_{v0} T^{c1}_{v1}`. -/
def threeFactors : List Tensor :=
  [soTensor .hamiltonian 'H' 1 [lab .v 0, lab .v 1] [lab .c 0, lab .c 1], soTensor .cluster 'T' 2 [lab .c 0] [lab .v 0],
    soTensor .cluster 'T' 2 [lab .c 1] [lab .v 1]]

/-- Multiplying the two amplitudes first stores an array with four labels; the best way stores one with two. -/
theorem C47_example : ∃ t : Term, t.tensors = threeFactors ∧ t.contractionPaths.map (fun p => (p.1.key, p.2.1.key)) =
    [([4, 2, 2, 0], [2, 1, 1, 0]), ([4, 2, 2, 0], [2, 1, 1, 0]), ([4, 2, 2, 0], [4, 2, 2, 0])] ∧
    t.optimalContractionCost.2.map (fun b => b.1.key) = some [2, 1, 1, 0] :=
  ⟨⟨1, soOp [] [], threeFactors, ∅, fun _ => 0, ∅⟩, rfl, by decide +kernel, by decide +kernel⟩

/-- A term of one tensor needs no contraction: the reported costs are the size of the tensor; a term without tensors has no path. -/
theorem C47_small (t : Term) :
    (∀ x, t.tensors = [x] → ∃ c s, t.optimalContractionCost = (some (c, none), some (s, none)) ∧
      c.Shows (scaling (tensorLabels x)) ∧ s.Shows (scaling (tensorLabels x))) ∧
    (t.tensors = [] → t.optimalContractionCost = (none, none) ∧ t.contractionPaths = []) := by
  refine ⟨fun x hx => ?_, fun h => ?_⟩
  · unfold Term.optimalContractionCost
    rw [hx]
    exact ⟨_, _, rfl, make_shows _, make_shows _⟩
  · have hp : t.contractionPaths = [] := by unfold Term.contractionPaths; rw [h]; rfl
    refine ⟨?_, hp⟩
    unfold Term.optimalContractionCost
    rw [h, hp]; rfl

end Dsrg
