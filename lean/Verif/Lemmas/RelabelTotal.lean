import Verif.Lemmas.Relabel
import Verif.Spec.Constructed

/-!
Relabelling a well-formed term succeeds.
-/

namespace Dsrg

theorem mapM_ok_of_forall {α β : Type} {ρ : α → Except PyErr β} {f : α → β} : ∀ {l : List α}, (∀ i ∈ l, ρ i = .ok (f i)) → l.mapM ρ = .ok (l.map f)
  | [], _ => rfl
  | a :: l, h => mapM_cons_ok.2 ⟨f a, l.map f, h a (by simp), mapM_ok_of_forall fun i hi => h i (List.mem_cons_of_mem _ hi), rfl⟩

theorem Indices.make_relabel {x : Indices} (h : x.Constructed) {f : Index → Index}
    (hinj : ∀ i ∈ x.list, ∀ j ∈ x.list, f i = f j → i = j) (hb : ∀ i ∈ x.list, (f i).space.beta = i.space.beta) :
    Indices.make x.ty (x.list.map f) = .ok ⟨x.ty, x.list.map f⟩ := by
  unfold Indices.Constructed Indices.make at h
  unfold Indices.make
  split_ifs at h with h1 h2
  rw [if_neg (not_not.2 (List.Nodup.map_on (fun i hi j hj => hinj i hi j hj) h1)), if_neg]
  rintro ⟨k1, k2⟩
  apply h2
  refine ⟨k1, ?_⟩
  rw [List.any_eq_true] at k2 ⊢
  obtain ⟨j, hj, k2⟩ := k2
  obtain ⟨i, hi, rfl⟩ := List.mem_map.1 hj
  exact ⟨i, hi, by rw [Index.isBeta, ← hb i hi]; exact k2⟩

theorem nBeta_relabel {ty ty' : IType} {l : List Index} {f : Index → Index} (hb : ∀ i ∈ l, (f i).space.beta = i.space.beta) :
    (⟨ty', l.map f⟩ : Indices).nBeta = (⟨ty, l⟩ : Indices).nBeta := by
  unfold Indices.nBeta
  rw [List.countP_map]
  exact List.countP_congr fun i hi => by simp [Index.isBeta, hb i hi]

/-- The label keeps its kind, or is not a general label and gets a more special kind. -/
def Refines (i j : Index) : Prop := j.space.kind = i.space.kind ∨ (i.space.kind ≠ .g ∧ j.space ∈ i.space.relation)

theorem refines_flags (i j : Space) (h : j.kind = i.kind ∨ (i.kind ≠ .g ∧ j ∈ i.relation)) :
    (Space.relation ⟨i.kind, false⟩ = {⟨.a, false⟩} → Space.relation ⟨j.kind, false⟩ = {⟨.a, false⟩}) ∧
    (Space.relation ⟨j.kind, false⟩ ≠ {⟨.a, false⟩} → (Space.relation ⟨j.kind, false⟩ ⊆ Space.relation ⟨.h, false⟩ →
        Space.relation ⟨i.kind, false⟩ ⊆ Space.relation ⟨.h, false⟩) ∧
      (Space.relation ⟨j.kind, false⟩ ⊆ Space.relation ⟨.p, false⟩ → Space.relation ⟨i.kind, false⟩ ⊆ Space.relation ⟨.p, false⟩)) := by
  revert i j; decide +kernel

theorem clusterFlags_refines {deEx : Kind} {f : Index → Index} : ∀ {l : List Index}, (∀ i ∈ l, Refines i (f i)) →
    ((clusterFlags deEx (l.map f)).1 = true → (clusterFlags deEx l).1 = true) ∧
      ((clusterFlags deEx (l.map f)).2.1 = true → (clusterFlags deEx l).2.1 = true)
  | [], _ => by simp [clusterFlags]
  | a :: l, h => by
    obtain ⟨ih1, ih2⟩ := clusterFlags_refines (deEx := deEx) (f := f) (l := l) fun i hi => h i (List.mem_cons_of_mem _ hi)
    obtain ⟨r1, r2⟩ := refines_flags _ _ (h a (by simp))
    simp only [List.map_cons, clusterFlags]
    by_cases c1 : Space.relation ⟨(f a).space.kind, false⟩ = {⟨.a, false⟩}
    · rw [if_pos c1]
      split_ifs
      · exact ⟨ih1, ih2⟩
      · exact ⟨fun k => by simp [ih1 k], fun k => by simp [ih2 k]⟩
    · rw [if_neg c1, if_neg (fun e => c1 (r1 e))]
      obtain ⟨s1, s2⟩ := r2 c1
      constructor
      · intro k
        simp only [Bool.or_eq_true, decide_eq_true_eq] at k ⊢
        exact k.imp ih1 s1
      · intro k
        simp only [Bool.or_eq_true, decide_eq_true_eq] at k ⊢
        exact k.imp ih2 s2

theorem clusterTest_refines {deEx : Kind} {f : Index → Index} {l : List Index} (h : ∀ i ∈ l, Refines i (f i)) {b : Bool}
    (hb : clusterTest deEx l = .ok b) : ∃ b', clusterTest deEx (l.map f) = .ok b' := by
  obtain ⟨h1, h2⟩ := clusterFlags_refines (deEx := deEx) h
  unfold clusterTest at hb ⊢
  simp only at hb ⊢
  split_ifs at hb with c
  rw [if_neg]
  · exact ⟨_, rfl⟩
  · intro k
    rw [Bool.and_eq_true] at k
    exact c (by rw [Bool.and_eq_true]; exact ⟨h1 k.1, h2 k.2⟩)

theorem requireSpinConserving_relabel {x : IndicesPair} {f : Index → Index} (hb : ∀ i ∈ x.upper.list ++ x.lower.list, (f i).space.beta = i.space.beta)
    (h : requireSpinConserving x = .ok ()) : requireSpinConserving (x.relabel f) = .ok () := by
  have e1 : (x.relabel f).upper.nBeta = x.upper.nBeta := nBeta_relabel fun i hi => hb i (List.mem_append_left _ hi)
  have e2 : (x.relabel f).lower.nBeta = x.lower.nBeta := nBeta_relabel fun i hi => hb i (List.mem_append_right _ hi)
  have e3 : (x.relabel f).nUpper = x.nUpper := by simp [IndicesPair.relabel, IndicesPair.nUpper, Indices.size]
  have e4 : (x.relabel f).nLower = x.nLower := by simp [IndicesPair.relabel, IndicesPair.nLower, Indices.size]
  unfold requireSpinConserving IndicesPair.isSpinConserving at h ⊢
  rw [e1, e2, e3, e4]; exact h

theorem Tensor.make_relabel {x : Tensor} (hx : x.Constructed) {f : Index → Index}
    (hb : ∀ i ∈ x.upper.list ++ x.lower.list, (f i).space.beta = i.space.beta)
    (hc : x.cls = .cluster → ∀ i ∈ x.upper.list ++ x.lower.list, Refines i (f i)) :
    Tensor.make x.cls ⟨x.upper.ty, x.upper.list.map f⟩ ⟨x.upper.ty, x.lower.list.map f⟩ x.name x.priority = .ok (x.relabel f) := by
  obtain ⟨-, -, h⟩ := hx
  have hpair : IndicesPair.make (⟨x.upper.ty, x.upper.list.map f⟩ : Indices) ⟨x.upper.ty, x.lower.list.map f⟩ = .ok (x.pair.relabel f) := by
    unfold IndicesPair.make; rw [if_neg (by simp)]; rfl
  have hpair' : IndicesPair.make x.upper x.lower = .ok x.pair := by
    unfold Tensor.make at h
    cases hp : IndicesPair.make x.upper x.lower with
    | error e => rw [hp] at h; cases h
    | ok p => obtain ⟨rfl, -⟩ := IndicesPair.make_eq hp; rfl
  unfold Tensor.make at h ⊢
  rw [hpair'] at h
  rw [hpair]
  have hone : requireOneBody x.pair = .ok () → requireOneBody (x.pair.relabel f) = .ok () := by
    unfold requireOneBody
    clear h
    simp only [IndicesPair.relabel, IndicesPair.nUpper, IndicesPair.nLower, Indices.size, List.length_map]
    exact id
  have hspin : requireSpinConserving x.pair = .ok () → requireSpinConserving (x.pair.relabel f) = .ok () := requireSpinConserving_relabel hb
  simp only [bind, Except.bind] at h ⊢
  have hup : (x.pair.relabel f).upper.list = x.upper.list.map f := rfl
  have hlo : (x.pair.relabel f).lower.list = x.lower.list.map f := rfl
  cases hcls : x.cls with
  | tensor => simp only [pure, Except.pure]; unfold Tensor.relabel; rw [hcls]; rfl
  | cumulant | hamiltonian =>
    rw [hcls] at h
    simp only at h ⊢
    cases h1 : requireSpinConserving x.pair with
    | error e => rw [h1] at h; cases h
    | ok u => rw [hspin h1]; simp only [pure, Except.pure]; unfold Tensor.relabel; rw [hcls]; rfl
  | hole | kronecker =>
    rw [hcls] at h
    simp only at h ⊢
    cases h1 : requireOneBody x.pair with
    | error e => rw [h1] at h; cases h
    | ok u =>
      rw [h1] at h
      simp only at h
      cases h2 : requireSpinConserving x.pair with
      | error e => rw [h2] at h; cases h
      | ok u => rw [hone h1, hspin h2]; simp only [pure, Except.pure]; unfold Tensor.relabel; rw [hcls]; rfl
  | cluster =>
    rw [hcls] at h
    simp only at h ⊢
    cases h1 : requireSpinConserving x.pair with
    | error e => rw [h1] at h; cases h
    | ok u =>
      rw [h1] at h
      simp only at h
      cases h2 : clusterTest .v x.pair.upper.list with
      | error e => rw [h2] at h; cases h
      | ok b =>
        rw [h2] at h
        simp only at h
        cases h3 : clusterTest .c x.pair.lower.list with
        | error e => rw [h3] at h; cases h
        | ok b' =>
          obtain ⟨_, k1⟩ := clusterTest_refines (fun i hi => hc hcls i (List.mem_append_left _ hi)) h2
          obtain ⟨_, k2⟩ := clusterTest_refines (fun i hi => hc hcls i (List.mem_append_right _ hi)) h3
          rw [hspin h1, hup, hlo]
          simp only [Tensor.upper, Tensor.lower]
          rw [k1, k2]
          simp only [pure, Except.pure]; unfold Tensor.relabel; rw [hcls]; rfl

theorem replaceTensor_total {x : Tensor} (hx : x.Constructed) {ρ : Index → Except PyErr Index} {f : Index → Index}
    (hρ : ∀ i ∈ x.upper.list ++ x.lower.list, ρ i = .ok (f i))
    (hinj : ∀ i ∈ x.upper.list ++ x.lower.list, ∀ j ∈ x.upper.list ++ x.lower.list, f i = f j → i = j)
    (hb : ∀ i ∈ x.upper.list ++ x.lower.list, (f i).space.beta = i.space.beta)
    (hc : x.cls = .cluster → ∀ i ∈ x.upper.list ++ x.lower.list, Refines i (f i)) :
    replaceTensor ρ x = .ok (x.relabel f) := by
  have hty : x.lower.ty = x.upper.ty := by
    obtain ⟨-, -, h⟩ := hx
    unfold Tensor.make at h
    cases hp : IndicesPair.make x.upper x.lower with
    | error e => rw [hp] at h; cases h
    | ok p => exact (IndicesPair.make_eq hp).2.symm
  unfold replaceTensor
  simp only [bind, Except.bind]
  rw [mapM_ok_of_forall fun i hi => hρ i (List.mem_append_left _ hi)]
  simp only
  rw [Indices.make_relabel hx.1 (fun i hi j hj => hinj i (List.mem_append_left _ hi) j (List.mem_append_left _ hj))
    fun i hi => hb i (List.mem_append_left _ hi)]
  simp only
  rw [mapM_ok_of_forall fun i hi => hρ i (List.mem_append_right _ hi)]
  simp only
  rw [← hty, Indices.make_relabel hx.2.1 (fun i hi j hj => hinj i (List.mem_append_right _ hi) j (List.mem_append_right _ hj))
    fun i hi => hb i (List.mem_append_right _ hi), hty]
  exact Tensor.make_relabel hx hb hc

theorem replaceSqOp_total {x : SqOp} (hx : IndicesPair.Constructed x) {ρ : Index → Except PyErr Index} {f : Index → Index}
    (hρ : ∀ i ∈ x.upper.list ++ x.lower.list, ρ i = .ok (f i))
    (hinj : ∀ i ∈ x.upper.list ++ x.lower.list, ∀ j ∈ x.upper.list ++ x.lower.list, f i = f j → i = j)
    (hb : ∀ i ∈ x.upper.list ++ x.lower.list, (f i).space.beta = i.space.beta) :
    replaceSqOp ρ x = .ok (x.relabel f) := by
  have hty : x.lower.ty = x.upper.ty := (IndicesPair.make_eq hx.2.2).2.symm
  unfold replaceSqOp
  simp only [bind, Except.bind]
  rw [mapM_ok_of_forall fun i hi => hρ i (List.mem_append_left _ hi)]
  simp only
  rw [Indices.make_relabel hx.1 (fun i hi j hj => hinj i (List.mem_append_left _ hi) j (List.mem_append_left _ hj))
    fun i hi => hb i (List.mem_append_left _ hi)]
  simp only
  rw [mapM_ok_of_forall fun i hi => hρ i (List.mem_append_right _ hi)]
  simp only
  rw [← hty, Indices.make_relabel hx.2.1 (fun i hi j hj => hinj i (List.mem_append_right _ hi) j (List.mem_append_right _ hj))
    fun i hi => hb i (List.mem_append_right _ hi), hty]
  show IndicesPair.make _ _ = _
  unfold IndicesPair.make
  rw [if_neg (by simp)]; rfl

theorem count_map_injOn {l : List Index} {f : Index → Index} (hinj : ∀ i ∈ l, ∀ j ∈ l, f i = f j → i = j) {i : Index} (hi : i ∈ l) :
    (l.map f).count (f i) = l.count i := by
  rw [List.count, List.countP_map, List.count]
  refine List.countP_congr fun j hj => ?_
  simp only [Function.comp_apply, beq_iff_eq]
  exact ⟨hinj j hj i hi, fun e => by rw [e]⟩

theorem Term.make_relabel {ts : List Tensor} {op : SqOp} {c : ℚ} (h : ∃ t, Term.make ts op c = .ok t) {f : Index → Index}
    (hinj : ∀ i ∈ labelsOf ts op, ∀ j ∈ labelsOf ts op, f i = f j → i = j) (c' : ℚ) :
    ∃ t, Term.make (ts.map (Tensor.relabel f)) (op.relabel f) c' = .ok t := by
  obtain ⟨t, h⟩ := h
  obtain ⟨h1, h2, h3, -⟩ := Term.make_ok.1 h
  have hinj' : ∀ i ∈ labelList ts op, ∀ j ∈ labelList ts op, f i = f j → i = j := by
    intro i hi j hj; exact hinj i (mem_labelsOf.2 hi) j (mem_labelsOf.2 hj)
  have hdiag : ∀ i ∈ labelList ts op, f i ∈ diagonalOf (ts.map (Tensor.relabel f)) (op.relabel f) ↔ i ∈ diagonalOf ts op := by
    intro i hi
    have hpair : ∀ u l : List Index, (∀ j ∈ u, j ∈ labelList ts op) → (∀ j ∈ l, j ∈ labelList ts op) →
        ((f i ∈ u.map f ∧ f i ∈ l.map f) ↔ i ∈ u ∧ i ∈ l) := by
      intro u l hu hl
      constructor
      · rintro ⟨k1, k2⟩
        obtain ⟨j, hj, e⟩ := List.mem_map.1 k1
        obtain ⟨j', hj', e'⟩ := List.mem_map.1 k2
        rw [hinj' j (hu j hj) i hi e] at hj
        rw [hinj' j' (hl j' hj') i hi e'] at hj'
        exact ⟨hj, hj'⟩
      · rintro ⟨k1, k2⟩; exact ⟨List.mem_map_of_mem k1, List.mem_map_of_mem k2⟩
    rw [mem_diagonalOf, mem_diagonalOf]
    refine or_congr (hpair _ _ (fun j hj => by simp [labelList, hj]) (fun j hj => by simp [labelList, hj])) ?_
    constructor
    · rintro ⟨y, hy, k⟩
      obtain ⟨x, hx, rfl⟩ := List.mem_map.1 hy
      exact ⟨x, hx, (hpair _ _ (fun j hj => mem_labelList.2 (Or.inr ⟨x, hx, List.mem_append_left _ hj⟩))
        (fun j hj => mem_labelList.2 (Or.inr ⟨x, hx, List.mem_append_right _ hj⟩))).1 k⟩
    · rintro ⟨x, hx, k⟩
      exact ⟨_, List.mem_map_of_mem hx, (hpair _ _ (fun j hj => mem_labelList.2 (Or.inr ⟨x, hx, List.mem_append_left _ hj⟩))
        (fun j hj => mem_labelList.2 (Or.inr ⟨x, hx, List.mem_append_right _ hj⟩))).2 k⟩
  refine ⟨_, Term.make_ok.2 ⟨?_, ?_, ?_, rfl⟩⟩
  · intro y hy
    obtain ⟨x, hx, rfl⟩ := List.mem_map.1 hy
    exact h1 x hx
  · intro j hj hd
    rw [labelList_relabel] at hj ⊢
    obtain ⟨i, hi, rfl⟩ := List.mem_map.1 hj
    rw [count_map_injOn hinj' hi]
    exact h2 i hi (fun k => hd ((hdiag i hi).2 k))
  · intro j hd
    have hj : j ∈ labelList (ts.map (Tensor.relabel f)) (op.relabel f) := by
      rw [mem_diagonalOf] at hd
      rw [mem_labelList]
      rcases hd with hd | ⟨x, hx, hd⟩
      · exact Or.inl (List.mem_append_left _ hd.1)
      · exact Or.inr ⟨x, hx, List.mem_append_left _ hd.1⟩
    rw [labelList_relabel] at hj ⊢
    obtain ⟨i, hi, rfl⟩ := List.mem_map.1 hj
    rw [count_map_injOn hinj' hi]
    exact h3 i ((hdiag i hi).1 hd)

end Dsrg
