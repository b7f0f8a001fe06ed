import Verif.Lemmas.SympyHalves
import Verif.Lemmas.RelabelTotal

/-!
Terms with two sides: what makes the constructors accept their factors.
-/

namespace Dsrg

/-- A kind with core, but no virtual orbitals. -/
def holeKind (k : Kind) : Prop := Space.relation ⟨k, false⟩ ≠ {⟨.a, false⟩} ∧ Space.relation ⟨k, false⟩ ⊆ Space.relation ⟨.h, false⟩
/-- A kind with virtual, but no core orbitals. -/
def partKind (k : Kind) : Prop := Space.relation ⟨k, false⟩ ≠ {⟨.a, false⟩} ∧ Space.relation ⟨k, false⟩ ⊆ Space.relation ⟨.p, false⟩

/-- Holes and particles are not mixed. -/
def PureHalf (l : List Space) : Prop := ¬ ((∃ s ∈ l, holeKind s.kind) ∧ ∃ s ∈ l, partKind s.kind)

theorem PureHalf.perm {l l' : List Space} (h : l.Perm l') (hl : PureHalf l) : PureHalf l' := by
  unfold PureHalf at hl ⊢
  simpa only [h.mem_iff] using hl

/-- What the labels of one half of an amplitude are made of. -/
def ClusterHalf (l : List Space) : Prop := PureHalf l ∧ ∀ s ∈ l, s.kind ≠ .g

theorem ClusterHalf.perm {l l' : List Space} (h : l.Perm l') (hl : ClusterHalf l) : ClusterHalf l' :=
  ⟨hl.1.perm h, fun s hs => hl.2 s (h.mem_iff.2 hs)⟩

theorem clusterFlags_iff (k : Kind) : ∀ l : List Index, ((clusterFlags k l).1 = true ↔ ∃ s ∈ l.map Index.space, holeKind s.kind) ∧
    ((clusterFlags k l).2.1 = true ↔ ∃ s ∈ l.map Index.space, partKind s.kind)
  | [] => by simp [clusterFlags]
  | i :: l => by
    obtain ⟨h1, h2⟩ := clusterFlags_iff k l
    rw [clusterFlags, List.map_cons]
    simp only [List.mem_cons, exists_eq_or_imp]
    by_cases hc : Space.relation ⟨i.space.kind, false⟩ = {⟨.a, false⟩}
    · rw [if_pos hc, h1, h2]
      simp [holeKind, partKind, hc]
    · rw [if_neg hc]
      simp only [Bool.or_eq_true, decide_eq_true_eq, h1, h2]
      refine ⟨?_, ?_⟩
      · rw [or_comm]
        exact or_congr ⟨fun h => ⟨hc, h⟩, fun h => h.2⟩ Iff.rfl
      · rw [or_comm]
        exact or_congr ⟨fun h => ⟨hc, h⟩, fun h => h.2⟩ Iff.rfl

theorem clusterTest_iff (k : Kind) (l : List Index) : (∃ b, clusterTest k l = .ok b) ↔ PureHalf (l.map Index.space) := by
  obtain ⟨h1, h2⟩ := clusterFlags_iff k l
  unfold clusterTest PureHalf
  rw [← h1, ← h2]
  simp only []
  split_ifs with h
  · simp only [Bool.and_eq_true] at h
    simp [h]
  · simp only [Bool.and_eq_true] at h
    simp [h]

/-- A tensor with labels of the given class that the constructors accept, as far as its labels differ. -/
structure SoundTensorOf (ty : IType) (x : Tensor) : Prop where
  upper : x.upper.ty = ty
  lower : x.lower.ty = ty
  len : x.upper.list.length = x.lower.list.length
  pos : x.upper.list ≠ []
  one : x.cls = .hole ∨ x.cls = .kronecker → x.upper.list.length = 1
  half : x.cls = .cluster → ClusterHalf (x.upper.list.map Index.space) ∧ ClusterHalf (x.lower.list.map Index.space)
  spin : ty ≠ .spinOrbital → x.upper.list.countP Index.isBeta = x.lower.list.countP Index.isBeta

/-- A tensor of spin orbitals that the constructors accept, as far as its labels differ. -/
abbrev SoundTensor (x : Tensor) : Prop := SoundTensorOf .spinOrbital x

theorem requireSpinConserving_noBeta {x : IndicesPair} (hl : x.upper.list.length = x.lower.list.length) (hb : ∀ i ∈ x.indices, i.isBeta = false) :
    requireSpinConserving x = .ok () := by
  have h0 : ∀ l : Indices, (∀ i ∈ l.list, i.isBeta = false) → l.nBeta = 0 := by
    intro l h
    unfold Indices.nBeta
    rw [List.countP_eq_zero]
    intro i hi
    simp [h i hi]
  unfold requireSpinConserving IndicesPair.isSpinConserving
  rw [if_pos (show x.nUpper = x.nLower from hl), h0 _ (fun i hi => hb i (List.mem_append_left _ hi)), h0 _ (fun i hi => hb i (List.mem_append_right _ hi))]
  rfl

/-- The constructors accept the tensor. -/
theorem SoundTensorOf.make {ty : IType} {x : Tensor} (h : SoundTensorOf ty x) (hb : ty = .spinOrbital → ∀ i ∈ x.pair.indices, i.isBeta = false) :
    Tensor.make x.cls x.upper x.lower x.name x.priority = .ok x := by
  have hpair : IndicesPair.make x.upper x.lower = .ok x.pair := by
    unfold IndicesPair.make; rw [if_neg (by rw [h.upper, h.lower]; simp)]
  have hspin : requireSpinConserving x.pair = .ok () := by
    by_cases hty : ty = .spinOrbital
    · exact requireSpinConserving_noBeta h.len (hb hty)
    · unfold requireSpinConserving IndicesPair.isSpinConserving
      rw [if_pos (show x.pair.nUpper = x.pair.nLower from h.len)]
      simp [show x.pair.upper.nBeta = x.pair.lower.nBeta from h.spin hty]
  have hone : x.cls = .hole ∨ x.cls = .kronecker → requireOneBody x.pair = .ok () := by
    intro hc
    unfold requireOneBody
    have h1 : x.pair.nUpper = 1 := h.one hc
    have h2 : x.pair.nLower = 1 := (h.len).symm.trans h1
    rw [if_pos ⟨h1, h2⟩]
  unfold Tensor.make
  rw [hpair]
  simp only [bind, Except.bind]
  cases hc : x.cls with
  | tensor => simp only [pure, Except.pure]; rw [← hc]
  | cumulant | hamiltonian => simp only [hspin, pure, Except.pure]; rw [← hc]
  | hole => simp only [hspin, hone (Or.inl hc), pure, Except.pure]; rw [← hc]
  | kronecker => simp only [hspin, hone (Or.inr hc), pure, Except.pure]; rw [← hc]
  | cluster =>
    obtain ⟨b1, k1⟩ := (clusterTest_iff .v x.pair.upper.list).2 (h.half hc).1.1
    obtain ⟨b2, k2⟩ := (clusterTest_iff .c x.pair.lower.list).2 (h.half hc).2.1
    simp only [hspin, k1, k2, pure, Except.pure]; rw [← hc]

/-- The halves of the operator and of the tensors can be put on two sides with the same labels. -/
def TwoSided (ts : List Tensor) (op : SqOp) : Prop :=
  ∃ obs : List (OBlock Index), obs.map Prod.snd = termBlocks ts op ∧ (sideA obs).Perm (sideB obs)

theorem perm_of_map {α β : Type} {g : α → β} {l l' : List β} (h : l.Perm l') : ∀ m : List α, m.map g = l → ∃ m', m.Perm m' ∧ m'.map g = l' := by
  induction h with
  | nil => intro m hm; exact ⟨m, .refl _, hm⟩
  | cons x _ ih =>
    intro m hm
    obtain ⟨a, m₁, rfl, h1, h2⟩ := List.map_eq_cons_iff.1 hm
    obtain ⟨m', h3, h4⟩ := ih m₁ h2
    exact ⟨a :: m', h3.cons a, by rw [List.map_cons, h1, h4]⟩
  | swap x y l =>
    intro m hm
    obtain ⟨a, m₁, rfl, h1, h2⟩ := List.map_eq_cons_iff.1 hm
    obtain ⟨b, m₂, rfl, h3, h4⟩ := List.map_eq_cons_iff.1 h2
    exact ⟨b :: a :: m₂, .swap _ _ _, by rw [List.map_cons, List.map_cons, h1, h3, h4]⟩
  | trans _ _ ih1 ih2 =>
    intro m hm
    obtain ⟨m₁, h1, h2⟩ := ih1 m hm
    obtain ⟨m₂, h3, h4⟩ := ih2 m₁ h2
    exact ⟨m₂, h1.trans h3, h4⟩

theorem sides_perm_blocks {α : Type} {obs obs' : List (OBlock α)} (h : obs.Perm obs') : (sideA obs).Perm (sideA obs') ∧ (sideB obs).Perm (sideB obs') :=
  ⟨h.flatMap_right _, h.flatMap_right _⟩

theorem TwoSided.perm {ts ts' : List Tensor} {op : SqOp} (h : TwoSided ts op) (hp : ts.Perm ts') : TwoSided ts' op := by
  obtain ⟨obs, h1, h2⟩ := h
  obtain ⟨w, m, rfl, h3⟩ := split_block h1
  have hq : (m.map Prod.snd).Perm (ts'.map fun t => pairBlock t.pair) := by rw [h3]; exact hp.map _
  obtain ⟨m', h4, h5⟩ := perm_of_map hq m rfl
  obtain ⟨a1, a2⟩ := sides_perm_blocks (h4.cons (w, pairBlock op))
  exact ⟨(w, pairBlock op) :: m', by rw [List.map_cons, h5]; rfl, a1.symm.trans (h2.trans a2)⟩

/-- Terms whose factors the constructors accept, whatever symmetry is applied to them. -/
structure SoundTermOf (ty : IType) (ts : List Tensor) (op : SqOp) : Prop where
  tensor : ∀ x ∈ ts, SoundTensorOf ty x
  upper : op.upper.ty = ty
  lower : op.lower.ty = ty
  bal : op.upper.list.length = op.lower.list.length
  beta : ty = .spinOrbital → ∀ i ∈ labelList ts op, i.isBeta = false
  two : ∀ i ∈ labelList ts op, (labelList ts op).count i = 2
  sided : TwoSided ts op

/-- The same with spin orbitals. -/
abbrev SoundTerm (ts : List Tensor) (op : SqOp) : Prop := SoundTermOf .spinOrbital ts op

theorem SoundTermOf.perm {ty : IType} {ts ts' : List Tensor} {op : SqOp} (h : SoundTermOf ty ts op) (hp : ts.Perm ts') : SoundTermOf ty ts' op where
  tensor x hx := h.tensor x (hp.mem_iff.2 hx)
  upper := h.upper
  lower := h.lower
  bal := h.bal
  beta hty i hi := h.beta hty i ((labelList_perm hp op).mem_iff.2 hi)
  two i hi := by rw [← (labelList_perm hp op).count_eq]; exact h.two i ((labelList_perm hp op).mem_iff.2 hi)
  sided := h.sided.perm hp

/-- With two sides, a label that occurs twice occurs once on each side. -/
theorem side_nodup {α : Type} [DecidableEq α] {obs : List (OBlock α)} (h : (sideA obs).Perm (sideB obs))
    (h2 : ∀ i ∈ flatBlocks (obs.map Prod.snd), (flatBlocks (obs.map Prod.snd)).count i = 2) : (sideA obs).Nodup ∧ (sideB obs).Nodup := by
  have key : (sideA obs).Nodup := by
    rw [List.nodup_iff_count_le_one]
    intro i
    by_cases hi : i ∈ sideA obs
    · have hm : i ∈ flatBlocks (obs.map Prod.snd) := (sides_perm obs).mem_iff.1 (List.mem_append_left _ hi)
      have := h2 i hm
      rw [← (sides_perm obs).count_eq, List.count_append, ← h.count_eq] at this
      omega
    · rw [List.count_eq_zero_of_not_mem hi]; omega
  exact ⟨key, h.nodup_iff.1 key⟩

theorem half_nodup {α : Type} {obs : List (OBlock α)} (hA : (sideA obs).Nodup) (hB : (sideB obs).Nodup) {b : List α × List α}
    (hb : b ∈ obs.map Prod.snd) : b.1.Nodup ∧ b.2.Nodup := by
  obtain ⟨⟨w, b⟩, hm, rfl⟩ := List.mem_map.1 hb
  obtain ⟨l, m, rfl⟩ := List.append_of_mem hm
  rw [sideA_append, sideA_cons] at hA
  rw [sideB_append, sideB_cons] at hB
  have a := (List.nodup_append.1 (List.nodup_append.1 hA).2.1).1
  have b := (List.nodup_append.1 (List.nodup_append.1 hB).2.1).1
  cases w
  · exact ⟨a, b⟩
  · exact ⟨b, a⟩

theorem SoundTermOf.nodup {ty : IType} {ts : List Tensor} {op : SqOp} (h : SoundTermOf ty ts op) {b : List Index × List Index} (hb : b ∈ termBlocks ts op) :
    b.1.Nodup ∧ b.2.Nodup := by
  obtain ⟨obs, h1, h2⟩ := h.sided
  obtain ⟨hA, hB⟩ := side_nodup h2 (by
    intro i hi
    rw [h1, flat_termBlocks] at hi ⊢
    rw [(slotLabels_perm _ _).count_eq]
    exact h.two i ((slotLabels_perm _ _).mem_iff.1 hi))
  exact half_nodup hA hB (by rw [h1]; exact hb)

end Dsrg
