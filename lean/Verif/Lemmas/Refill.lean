import Verif.Lemmas.SlotMoves
import Verif.Lemmas.Canonical

/-!
Terms rebuilt from the labels in their slots, and how their values change under the moves of SymPy.
-/

namespace Dsrg

/-- A tensor whose slots (lower labels first) are filled from a list. -/
def Tensor.refill (t : Tensor) (L : List Index) : Tensor :=
  ⟨t.cls, t.name, t.priority, ⟨⟨t.upper.ty, (L.drop t.pair.nLower).take t.pair.nUpper⟩, ⟨t.upper.ty, L.take t.pair.nLower⟩⟩⟩

/-- Tensors whose slots are filled one after the other. -/
def refillAll : List Tensor → List Index → List Tensor
  | [], _ => []
  | t :: ts, L => t.refill L :: refillAll ts (L.drop t.pair.size)

/-- An operator whose slots are filled from a list. -/
def IndicesPair.refill (op : SqOp) (L : List Index) : SqOp :=
  ⟨⟨op.upper.ty, (L.drop op.nLower).take op.nUpper⟩, ⟨op.upper.ty, L.take op.nLower⟩⟩

/-- The number of slots of a list of tensors. -/
def slotCount (ts : List Tensor) : Nat := (ts.map fun t => t.pair.size).sum

theorem slotCount_cons (t : Tensor) (ts : List Tensor) : slotCount (t :: ts) = t.pair.size + slotCount ts := by simp [slotCount]

theorem slotCount_append (ts ts' : List Tensor) : slotCount (ts ++ ts') = slotCount ts + slotCount ts' := by simp [slotCount]

theorem take_drop_append (b rest : List Index) (m k : Nat) (h : b.length = k + m) :
    ((b ++ rest).drop m).take k = (b.drop m).take k ∧ (b ++ rest).take m = b.take m := by
  constructor
  · rw [List.drop_append_of_le_length (by omega), List.take_append_of_le_length (by simp; omega)]
  · rw [List.take_append_of_le_length (by omega)]

theorem Tensor.refill_append (t : Tensor) (b rest : List Index) (h : b.length = t.pair.size) : t.refill (b ++ rest) = t.refill b := by
  obtain ⟨h1, h2⟩ := take_drop_append b rest t.pair.nLower t.pair.nUpper h
  unfold Tensor.refill
  rw [h1, h2]

theorem IndicesPair.refill_append (op : SqOp) (b rest : List Index) (h : b.length = op.size) : op.refill (b ++ rest) = op.refill b := by
  obtain ⟨h1, h2⟩ := take_drop_append b rest op.nLower op.nUpper h
  unfold IndicesPair.refill
  rw [h1, h2]

theorem refillAll_append (ts ts' : List Tensor) (L L' : List Index) (h : L.length = slotCount ts) :
    refillAll (ts ++ ts') (L ++ L') = refillAll ts L ++ refillAll ts' L' := by
  induction ts generalizing L with
  | nil => simp [slotCount] at h; simp [h, refillAll]
  | cons t ts ih =>
    rw [slotCount_cons] at h
    rw [List.cons_append, refillAll, refillAll, List.cons_append]
    congr 1
    · obtain ⟨b, rest, rfl, hb⟩ : ∃ b rest, L = b ++ rest ∧ b.length = t.pair.size :=
        ⟨L.take t.pair.size, L.drop t.pair.size, (List.take_append_drop _ _).symm, by simp; omega⟩
      rw [List.append_assoc, t.refill_append _ _ hb, t.refill_append _ _ hb]
    · rw [List.drop_append_of_le_length (by omega)]
      exact ih _ (by simp; omega)

theorem refillAll_cons (t : Tensor) (ts : List Tensor) (b L : List Index) (h : b.length = t.pair.size) :
    refillAll (t :: ts) (b ++ L) = t.refill b :: refillAll ts L := by
  rw [refillAll, t.refill_append _ _ h, List.drop_append_of_le_length (by omega), ← h, List.drop_length, List.nil_append]

theorem Tensor.refill_labels (t : Tensor) (b : List Index) (h : b.length = t.pair.size) :
    (t.refill b).lower.list ++ (t.refill b).upper.list = b := by
  change b.take t.pair.nLower ++ (b.drop t.pair.nLower).take t.pair.nUpper = b
  rw [List.take_of_length_le (l := b.drop _) (by rw [List.length_drop, h]; unfold IndicesPair.size; omega), List.take_append_drop]

theorem IndicesPair.refill_labels (op : SqOp) (b : List Index) (h : b.length = op.size) :
    (op.refill b).lower.list ++ (op.refill b).upper.list = b := by
  change b.take op.nLower ++ (b.drop op.nLower).take op.nUpper = b
  rw [List.take_of_length_le (l := b.drop _) (by rw [List.length_drop, h]; unfold IndicesPair.size; omega), List.take_append_drop]

theorem slotLabels_refill (ts : List Tensor) (op : SqOp) (b L : List Index) (h : b.length = op.size) (hL : L.length = slotCount ts) :
    slotLabels (refillAll ts L) (op.refill b) = b ++ L := by
  unfold slotLabels
  rw [op.refill_labels b h]
  congr 1
  induction ts generalizing L with
  | nil => simp [slotCount] at hL; simp [hL, refillAll]
  | cons t ts ih =>
    rw [slotCount_cons] at hL
    obtain ⟨c, rest, rfl, hc⟩ : ∃ c rest, L = c ++ rest ∧ c.length = t.pair.size :=
      ⟨L.take t.pair.size, L.drop t.pair.size, (List.take_append_drop _ _).symm, by simp; omega⟩
    rw [refillAll_cons _ _ _ _ hc, List.flatMap_cons, t.refill_labels c hc, ih rest (by simp at hL; omega)]

theorem slotLabels_perm (ts : List Tensor) (op : SqOp) : (slotLabels ts op).Perm (labelList ts op) := by
  unfold slotLabels labelList
  refine List.Perm.append List.perm_append_comm ?_
  induction ts with
  | nil => exact .refl _
  | cons t ts ih =>
    rw [List.flatMap_cons, List.flatMap_cons]
    exact List.Perm.append List.perm_append_comm ih

theorem slotLabels_length (ts : List Tensor) (op : SqOp) : (slotLabels ts op).length = op.size + slotCount ts := by
  unfold slotLabels slotCount
  rw [List.length_append, List.length_append, List.length_flatMap]
  congr 1
  · unfold IndicesPair.size IndicesPair.nUpper IndicesPair.nLower Indices.size; omega
  · congr 1
    apply List.map_congr_left
    intro t _
    rw [List.length_append]
    unfold IndicesPair.size IndicesPair.nUpper IndicesPair.nLower Indices.size Tensor.upper Tensor.lower; omega

theorem labelsOf_slotLabels (ts : List Tensor) (op : SqOp) : labelsOf ts op = (slotLabels ts op).toFinset := by
  ext i
  rw [mem_labelsOf, List.mem_toFinset, (slotLabels_perm ts op).mem_iff]

/-- Filling with the relabelled labels of a term relabels the term. -/
theorem refill_slotLabels (f : Index → Index) (ts : List Tensor) (op : SqOp) :
    op.refill ((slotLabels ts op).map f) = op.relabel f ∧
      refillAll ts (((slotLabels ts op).map f).drop op.size) = ts.map (Tensor.relabel f) := by
  have hlen : ((op.lower.list ++ op.upper.list).map f).length = op.size := by
    simp [IndicesPair.size, IndicesPair.nUpper, IndicesPair.nLower, Indices.size]; omega
  have hn : op.nLower = (op.lower.list.map f).length := by simp [IndicesPair.nLower, Indices.size]
  have hu : op.nUpper = (op.upper.list.map f).length := by simp [IndicesPair.nUpper, Indices.size]
  constructor
  · unfold slotLabels
    rw [List.map_append, op.refill_append _ _ hlen]
    unfold IndicesPair.refill IndicesPair.relabel
    rw [List.map_append, hn, List.take_left, List.drop_left, hu, List.take_length]
  · unfold slotLabels
    rw [List.map_append, ← hlen, List.drop_left]
    clear hlen hn hu
    induction ts with
    | nil => rfl
    | cons t ts ih =>
      rw [List.flatMap_cons, List.map_append, List.map_cons]
      rw [refillAll_cons _ _ _ _ (by
        simp [IndicesPair.size, IndicesPair.nUpper, IndicesPair.nLower, Indices.size, Tensor.upper, Tensor.lower]; omega), ih]
      congr 1
      unfold Tensor.refill Tensor.relabel
      have hn : t.pair.nLower = (t.lower.list.map f).length := by simp [IndicesPair.nLower, Indices.size, Tensor.lower]
      have hu : t.pair.nUpper = (t.upper.list.map f).length := by simp [IndicesPair.nUpper, Indices.size, Tensor.upper]
      rw [List.map_append, hn, List.take_left, List.drop_left, hu, List.take_length]

section
variable {O R M : Type} [Fintype O] [DecidableEq O] [Inhabited O] [CommRing R] [Algebra ℚ R] [AddCommGroup M] [Module R M]

/-- The value of the tensors `ts` and the operator `op` with the labels `L` in their slots. -/
def Interp.fillValue (I : Interp O R M) (orb : Orbitals O) (ts : List Tensor) (op : SqOp) (L : List Index) : M :=
  I.value orb 1 (refillAll ts (L.drop op.size)) (op.refill L)

theorem labelsOf_refill (ts : List Tensor) (op : SqOp) (L : List Index) (h : L.length = op.size + slotCount ts) :
    labelsOf (refillAll ts (L.drop op.size)) (op.refill L) = L.toFinset := by
  obtain ⟨b, rest, rfl, hb⟩ : ∃ b rest, L = b ++ rest ∧ b.length = op.size :=
    ⟨L.take op.size, L.drop op.size, (List.take_append_drop _ _).symm, by simp; omega⟩
  rw [op.refill_append b rest hb, List.drop_append_of_le_length (by omega), ← hb, List.drop_length, List.nil_append,
    labelsOf_slotLabels, slotLabels_refill _ _ _ _ hb (by simp at h; omega)]

/-- The same labels in other slots: the values are related as the summands are. -/
theorem Interp.fillValue_congr (I : Interp O R M) (orb : Orbitals O) (ts : List Tensor) (op : SqOp) (L L' : List Index)
    (h : L.length = op.size + slotCount ts) (hp : L'.Perm L) (ε : ℤ)
    (hs : ∀ σ : Index → O, I.pval σ (refillAll ts (L'.drop op.size)) • I.opval σ (op.refill L') =
      ε • (I.pval σ (refillAll ts (L.drop op.size)) • I.opval σ (op.refill L))) :
    I.fillValue orb ts op L' = ε • I.fillValue orb ts op L := by
  unfold Interp.fillValue Interp.value
  rw [labelsOf_refill ts op L h, labelsOf_refill ts op L' (hp.length_eq.trans h), List.toFinset_eq_of_perm _ _ hp]
  rw [map_one, one_smul, one_smul, Finset.smul_sum]
  exact Finset.sum_congr rfl fun σ _ => hs _

theorem Interp.fillValue_map (I : Interp O R M) (orb : Orbitals O) (ts : List Tensor) (op : SqOp) (L : List Index)
    (h : L.length = op.size + slotCount ts) (f : Index → Index) (hi : ∀ i ∈ L, ∀ j ∈ L, f i = f j → i = j)
    (hsp : ∀ i ∈ L, (f i).space = i.space) : I.fillValue orb ts op (L.map f) = I.fillValue orb ts op L := by
  have e1 : ∀ (ts : List Tensor) (L : List Index), refillAll ts (L.map f) = (refillAll ts L).map (Tensor.relabel f) := by
    intro ts
    induction ts with
    | nil => intro L; rfl
    | cons t ts ih =>
      intro L
      rw [refillAll, refillAll, List.map_cons, ← List.map_drop, ih]
      congr 1
      simp [Tensor.refill, Tensor.relabel, Tensor.upper, Tensor.lower, List.map_take, List.map_drop]
  have e2 : op.refill (L.map f) = (op.refill L).relabel f := by
    simp [IndicesPair.refill, IndicesPair.relabel, List.map_take, List.map_drop]
  unfold Interp.fillValue
  rw [← List.map_drop, e1, e2]
  apply I.value_relabel
  · rw [labelsOf_refill ts op L h]
    intro i hi' j hj' e
    exact hi i (List.mem_toFinset.1 hi') j (List.mem_toFinset.1 hj') e
  · rw [labelsOf_refill ts op L h]
    intro i hi'
    exact hsp i (List.mem_toFinset.1 hi')

theorem Interp.pval_append (I : Interp O R M) (σ : Index → O) (ts ts' : List Tensor) : I.pval σ (ts ++ ts') = I.pval σ ts * I.pval σ ts' := by
  simp [Interp.pval]

theorem Interp.pval_cons (I : Interp O R M) (σ : Index → O) (t : Tensor) (ts : List Tensor) : I.pval σ (t :: ts) = I.tval σ t * I.pval σ ts := by
  simp [Interp.pval]

omit [Algebra ℚ R] [Module R M] in
/-- A move of the slots of a tensor changes its value at most by a sign. -/
theorem Interp.tval_move {I : Interp O R M} {anti herm : Bool} (hI : I.SlotSymmetric anti herm) {n : Nat} {b b' : List Nat} {flip : Bool}
    (h : BlockMove anti herm n b b' flip) (t : Tensor) (hu : t.pair.nUpper = n) (hl : t.pair.nLower = n) (g : Nat → Index) (σ : Index → O) :
    I.tval σ (t.refill (b'.map g)) = (if flip then -1 else 1 : ℤ) • I.tval σ (t.refill (b.map g)) := by
  have hrec : ∀ lo up : List Nat, lo.length = n → up.length = n → I.tval σ (t.refill ((lo ++ up).map g)) =
      I.tensor t.cls t.name ((up.map g).map σ) ((lo.map g).map σ) := by
    intro lo up h1 h2
    have h1 : (lo.map g).length = n := by simpa using h1
    have h2 : (up.map g).length = n := by simpa using h2
    rw [List.map_append]
    generalize lo.map g = lo at *
    generalize up.map g = up at *
    change I.tensor t.cls t.name ((((lo ++ up).drop t.pair.nLower).take t.pair.nUpper).map σ) (((lo ++ up).take t.pair.nLower).map σ) = _
    rw [hu, hl, ← h1, List.drop_left, List.take_left, h1, ← h2, List.take_length]
  cases h with
  | stay => simp
  | lower pre post up a c ha h1 h2 =>
    rw [hrec _ _ (by rw [← h1]; simp) h2,
      hrec _ _ h1 h2]
    simp only [List.map_append, List.map_cons]
    rw [(hI.1 ha).lower]; simp
  | upper lo pre post a c ha h1 h2 =>
    rw [hrec _ _ h1 (by rw [← h2]; simp),
      hrec _ _ h1 h2]
    simp only [List.map_append, List.map_cons]
    rw [(hI.1 ha).upper]; simp
  | pairs pre post pre' post' a c a' c' ha h1 h2 h3 =>
    rw [hrec _ _ (by rw [← h1]; simp) (by rw [← h2]; simp),
      hrec _ _ h1 h2]
    simp only [List.map_append, List.map_cons]
    rw [(hI.2.1 ha) _ _ _ _ _ _ _ _ _ _ (by simp [h3])]; simp
  | halves lo up hh h1 h2 =>
    rw [hrec _ _ h2 h1, hrec _ _ h1 h2]
    rw [(hI.2.2 hh)]; simp

omit [Algebra ℚ R] [Module R M] in
/-- A move of the slots of an antisymmetric operator changes its value at most by a sign. -/
theorem Interp.opval_move {I : Interp O R M} (hI : I.Antisymmetric) {n : Nat} {b b' : List Nat} {flip : Bool}
    (h : BlockMove true false n b b' flip) (op : SqOp) (hu : op.nUpper = n) (hl : op.nLower = n) (g : Nat → Index) (σ : Index → O) :
    I.opval σ (op.refill (b'.map g)) = (if flip then -1 else 1 : ℤ) • I.opval σ (op.refill (b.map g)) := by
  have hrec : ∀ lo up : List Nat, lo.length = n → up.length = n → I.opval σ (op.refill ((lo ++ up).map g)) =
      I.op ((up.map g).map σ) ((lo.map g).map σ) := by
    intro lo up h1 h2
    have h1 : (lo.map g).length = n := by simpa using h1
    have h2 : (up.map g).length = n := by simpa using h2
    rw [List.map_append]
    generalize lo.map g = lo at *
    generalize up.map g = up at *
    change I.op ((((lo ++ up).drop op.nLower).take op.nUpper).map σ) (((lo ++ up).take op.nLower).map σ) = _
    rw [hu, hl, ← h1, List.drop_left, List.take_left, h1, ← h2, List.take_length]
  cases h with
  | stay => simp
  | lower pre post up a c ha h1 h2 =>
    rw [hrec _ _ (by rw [← h1]; simp) h2,
      hrec _ _ h1 h2]
    simp only [List.map_append, List.map_cons]
    rw [hI.opLower]; simp
  | upper lo pre post a c ha h1 h2 =>
    rw [hrec _ _ h1 (by rw [← h2]; simp),
      hrec _ _ h1 h2]
    simp only [List.map_append, List.map_cons]
    rw [hI.opUpper]; simp
  | pairs pre post pre' post' a c a' c' ha h1 h2 h3 => exact absurd ha (by decide)
  | halves lo up hh h1 h2 => exact absurd hh (by decide)

end

theorem BlockMove.perm {anti herm : Bool} {n : Nat} {b b' : List Nat} {flip : Bool} (h : BlockMove anti herm n b b' flip) : b'.Perm b := by
  have key : ∀ (pre post : List Nat) (a c : Nat), (pre ++ c :: a :: post).Perm (pre ++ a :: c :: post) :=
    fun pre post a c => List.Perm.append_left _ (List.Perm.swap _ _ _)
  cases h with
  | stay => exact .refl _
  | lower pre post up a c ha h1 h2 => exact List.Perm.append_right _ (key _ _ _ _)
  | upper lo pre post a c ha h1 h2 => exact List.Perm.append_left _ (key _ _ _ _)
  | pairs pre post pre' post' a c a' c' ha h1 h2 h3 => exact List.Perm.append (key _ _ _ _) (key _ _ _ _)
  | halves lo up hh h1 h2 => exact List.perm_append_comm

end Dsrg
