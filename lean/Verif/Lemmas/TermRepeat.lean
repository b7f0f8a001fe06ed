import Verif.Lemmas.TermObject

/-!
Canonicalizing a term does not depend on the names of its labels.
-/

namespace Dsrg

/-- Rename the keys of a dictionary. -/
def renameKeys (f : Index → Index) (d : Dict Index Index) : Dict Index Index := d.map fun e => (f e.1, e.2)

theorem minimalFactor_append (st : Dict Index Index × (Space → Nat)) (a b : List Index) :
    minimalFactor st (a ++ b) = minimalFactor (minimalFactor st a) b := by
  unfold minimalFactor; rw [List.foldl_append]

theorem minimalFactor_idle {l : List Index} {st : Dict Index Index × (Space → Nat)} (h : ∀ i ∈ l, i ∈ st.1.map Prod.fst) : minimalFactor st l = st := by
  induction l with
  | nil => rfl
  | cons a l ih =>
    unfold minimalFactor
    rw [List.foldl_cons, if_pos]
    · exact ih fun i hi => h i (by simp [hi])
    · rw [List.any_eq_true]
      obtain ⟨e, he, hea⟩ := List.mem_map.1 (h a (by simp))
      exact ⟨e, he, by simpa using hea⟩

/-- Leaving the loop early does not change the dictionary. -/
theorem minimalLoop_full {s : Finset Index} : ∀ (fs : List (List Index)) (st : Dict Index Index × (Space → Nat)), MinimalDict st.1 st.2 →
    (∀ i ∈ st.1.map Prod.fst, i ∈ s) → (∀ f ∈ fs, ∀ i ∈ f, i ∈ s) → minimalLoop s.card st fs = minimalFactor st fs.flatten := by
  intro fs
  induction fs with
  | nil => intro st _ _ _; rfl
  | cons f fs ih =>
    intro st h h1 h2
    obtain ⟨m1, m2⟩ := minimalFactor_spec f st h
    have hsub : ∀ i ∈ (minimalFactor st f).1.map Prod.fst, i ∈ s := by
      intro i hi
      rcases (m2 i).1 hi with hi | hi
      · exact h1 i hi
      · exact h2 f (by simp) i hi
    rw [minimalLoop, List.flatten_cons, minimalFactor_append]
    split_ifs with hc
    · have heq : ((minimalFactor st f).1.map Prod.fst).toFinset = s := by
        apply Finset.eq_of_subset_of_card_le
        · intro i hi; exact hsub i (List.mem_toFinset.1 hi)
        · rw [List.toFinset_card_of_nodup m1.keys, List.length_map, hc]
      rw [minimalFactor_idle (l := fs.flatten)]
      intro i hi
      obtain ⟨g, hg, hi⟩ := List.mem_flatten.1 hi
      rw [← List.mem_toFinset, heq]
      exact h2 g (by simp [hg]) i hi
    · exact ih _ m1 hsub fun g hg => h2 g (by simp [hg])

theorem minimalIndices_full (t : Term) (h : labelsOf t.tensors t.sqOp ⊆ t.indicesSet) :
    t.minimalIndices = (minimalFactor ([], fun _ => 0) (labelList t.tensors t.sqOp)).1 := by
  have h0 : MinimalDict [] (fun _ => 0) := ⟨by simp, by simp, by simp, by simp, by simp⟩
  unfold Term.minimalIndices
  rw [minimalLoop_full _ _ h0 (by simp)]
  · rw [List.flatten_cons]
    unfold labelList
    rw [List.flatMap_def]
    rfl
  · intro f hf i hi
    apply h
    rw [mem_labelsOf, mem_labelList]
    rcases List.mem_cons.1 hf with rfl | hf
    · exact Or.inl hi
    · obtain ⟨x, hx, rfl⟩ := List.mem_map.1 hf; exact Or.inr ⟨x, hx, hi⟩

theorem minimalFactor_rename {f : Index → Index} {K : Finset Index} (hinj : ∀ i ∈ K, ∀ j ∈ K, f i = f j → i = j) (hsp : ∀ i, (f i).space = i.space) :
    ∀ (l : List Index) (st : Dict Index Index × (Space → Nat)), (∀ i ∈ l, i ∈ K) → (∀ i ∈ st.1.map Prod.fst, i ∈ K) →
      minimalFactor (renameKeys f st.1, st.2) (l.map f) = (renameKeys f (minimalFactor st l).1, (minimalFactor st l).2) := by
  intro l
  induction l with
  | nil => intro st _ _; rfl
  | cons a l ih =>
    intro st hl hk
    have hany : ((renameKeys f st.1).any fun e => decide (e.1 = f a)) = st.1.any fun e => decide (e.1 = a) := by
      unfold renameKeys
      rw [List.any_map]
      have key : ∀ d : Dict Index Index, (∀ i ∈ d.map Prod.fst, i ∈ K) →
          (d.any fun e => decide (f e.1 = f a)) = d.any fun e => decide (e.1 = a) := by
        intro d
        induction d with
        | nil => intro _; rfl
        | cons e d ihd =>
          intro hd
          rw [List.any_cons, List.any_cons, ihd fun i hi => hd i (by rw [List.map_cons]; exact List.mem_cons_of_mem _ hi)]
          congr 1
          rw [decide_eq_decide]
          exact ⟨fun h => hinj _ (hd _ (by simp)) _ (hl a (by simp)) h, fun h => by rw [h]⟩
      exact key st.1 hk
    unfold minimalFactor
    rw [List.map_cons, List.foldl_cons, List.foldl_cons]
    simp only []
    rw [hany]
    by_cases ha : (st.1.any fun e => decide (e.1 = a)) = true
    · rw [if_pos ha, if_pos ha]
      exact ih st (fun i hi => hl i (by simp [hi])) hk
    · rw [if_neg ha, if_neg ha]
      have := ih (st.1 ++ [(a, (generateNextIndex a.space st.2).1)], (generateNextIndex a.space st.2).2) (fun i hi => hl i (by simp [hi])) (by
        intro i hi
        simp only [List.map_append, List.map_cons, List.map_nil, List.mem_append, List.mem_singleton] at hi
        rcases hi with hi | rfl
        · exact hk i hi
        · exact hl i (by simp))
      unfold minimalFactor at this
      rw [hsp a]
      unfold renameKeys at this ⊢
      rw [List.map_append] at this
      exact this

theorem dictFind_rename {f : Index → Index} {K : Finset Index} (hinj : ∀ i ∈ K, ∀ j ∈ K, f i = f j → i = j) {i : Index} (hi : i ∈ K) :
    ∀ d : Dict Index Index, (∀ k ∈ d.map Prod.fst, k ∈ K) → dictFind (renameKeys f d) (f i) = dictFind d i := by
  intro d
  induction d with
  | nil => intro _; rfl
  | cons e d ih =>
    intro hd
    have ih := ih fun k hk => hd k (by rw [List.map_cons]; exact List.mem_cons_of_mem _ hk)
    unfold dictFind renameKeys at ih ⊢
    rw [List.map_cons, List.find?_cons, List.find?_cons]
    by_cases he : e.1 = i
    · simp [he]
    · have hne : f e.1 ≠ f i := fun h => he (hinj _ (hd _ (by simp)) _ hi h)
      simp only [decide_eq_false he, decide_eq_false hne]
      exact ih

section
variable {s s' : Term} {f : Index → Index}

theorem Renamed.labels (h : Renamed s s' f) : labelList s'.tensors s'.sqOp = (labelList s.tensors s.sqOp).map f := by
  rw [h.tensors, h.op, labelList_relabel']

theorem Renamed.minimalIndices (h : Renamed s s' f) (hs : labelsOf s.tensors s.sqOp ⊆ s.indicesSet) (hs' : labelsOf s'.tensors s'.sqOp ⊆ s'.indicesSet) :
    s'.minimalIndices = renameKeys f s.minimalIndices := by
  rw [minimalIndices_full s hs, minimalIndices_full s' hs', h.labels]
  have := minimalFactor_rename (K := labelsOf s.tensors s.sqOp) h.inj h.space (labelList s.tensors s.sqOp) ([], fun _ => 0)
    (fun i hi => mem_labelsOf.2 hi) (by simp)
  exact congrArg Prod.fst this

theorem Renamed.find (h : Renamed s s' f) (hs : labelsOf s.tensors s.sqOp ⊆ s.indicesSet) (hs' : labelsOf s'.tensors s'.sqOp ⊆ s'.indicesSet)
    {i : Index} (hi : i ∈ labelsOf s.tensors s.sqOp) : dictFind s'.minimalIndices (f i) = dictFind s.minimalIndices i := by
  rw [h.minimalIndices hs hs']
  obtain ⟨-, -, hk⟩ := minimalIndices_spec s hs
  exact dictFind_rename h.inj hi _ fun k hkm => (hk k).1 hkm

theorem mapM_comp_eq {ρ ρ' : Index → Except PyErr Index} : ∀ l : List Index, (∀ i ∈ l, ρ' (f i) = ρ i) → (l.map f).mapM ρ' = l.mapM ρ
  | [], _ => rfl
  | a :: l, h => by
    rw [List.map_cons, List.mapM_cons, List.mapM_cons, h a (by simp), mapM_comp_eq l fun i hi => h i (by simp [hi])]

theorem replaceTensor_rename {ρ ρ' : Index → Except PyErr Index} {x : Tensor} (h : ∀ i ∈ x.pair.indices, ρ' (f i) = ρ i) :
    replaceTensor ρ' (x.relabel f) = replaceTensor ρ x := by
  unfold replaceTensor
  have h1 : (x.relabel f).upper.list.mapM ρ' = x.upper.list.mapM ρ := mapM_comp_eq _ fun i hi => h i (List.mem_append_left _ hi)
  have h2 : (x.relabel f).lower.list.mapM ρ' = x.lower.list.mapM ρ := mapM_comp_eq _ fun i hi => h i (List.mem_append_right _ hi)
  rw [h1, h2]
  rfl

theorem replaceSqOp_rename {ρ ρ' : Index → Except PyErr Index} {x : SqOp} (h : ∀ i ∈ IndicesPair.indices x, ρ' (f i) = ρ i) :
    replaceSqOp ρ' (x.relabel f) = replaceSqOp ρ x := by
  unfold replaceSqOp
  have h1 : (x.relabel f).upper.list.mapM ρ' = x.upper.list.mapM ρ := mapM_comp_eq _ fun i hi => h i (List.mem_append_left _ hi)
  have h2 : (x.relabel f).lower.list.mapM ρ' = x.lower.list.mapM ρ := mapM_comp_eq _ fun i hi => h i (List.mem_append_right _ hi)
  rw [h1, h2]
  rfl

theorem mapM_tensors_rename {ρ ρ' : Index → Except PyErr Index} : ∀ ts : List Tensor, (∀ x ∈ ts, ∀ i ∈ x.pair.indices, ρ' (f i) = ρ i) →
    (ts.map (Tensor.relabel f)).mapM (replaceTensor ρ') = ts.mapM (replaceTensor ρ)
  | [], _ => rfl
  | a :: l, h => by
    rw [List.map_cons, List.mapM_cons, List.mapM_cons, replaceTensor_rename (h a (by simp)), mapM_tensors_rename l fun x hx => h x (by simp [hx])]

/-- `canonicalize_simple` after `simplify`. -/
def simpleTail (s : Term) : Except PyErr Term :=
  if s.isVoid then s.void
  else do
    let r ← relabelIndices (dictFind s.minimalIndices) s.tensors s.sqOp
    Term.make r.2.1 r.2.2 (s.coeff * r.1)

theorem canonicalizeSimple_eq (ord : SetOrder) (t : Term) (core removeActive : Bool) :
    t.canonicalizeSimple ord core removeActive = t.simplify ord core removeActive >>= simpleTail := rfl

theorem Renamed.isVoid (h : Renamed s s' f) : s'.isVoid = s.isVoid := by unfold Term.isVoid; rw [h.coeff]

theorem Renamed.simpleTail (h : Renamed s s' f) (hs : labelsOf s.tensors s.sqOp ⊆ s.indicesSet)
    (hs' : labelsOf s'.tensors s'.sqOp ⊆ s'.indicesSet) : simpleTail s' = simpleTail s := by
  unfold Dsrg.simpleTail
  rw [h.isVoid, h.coeff]
  by_cases hv : s.isVoid = true
  · rw [if_pos hv, if_pos hv]
    unfold Term.void IndicesPair.void
    rw [h.op]
    rfl
  · rw [if_neg hv, if_neg hv]
    have hr : relabelIndices (dictFind s'.minimalIndices) s'.tensors s'.sqOp = relabelIndices (dictFind s.minimalIndices) s.tensors s.sqOp := by
      unfold relabelIndices
      have e1 : replaceSqOp (dictFind s'.minimalIndices) s'.sqOp = replaceSqOp (dictFind s.minimalIndices) s.sqOp := by
        rw [h.op]
        exact replaceSqOp_rename fun i hi => h.find hs hs' (mem_labelsOf.2 (mem_labelList.2 (Or.inl hi)))
      have e2 : replaceTensors (dictFind s'.minimalIndices) s'.tensors = replaceTensors (dictFind s.minimalIndices) s.tensors := by
        unfold replaceTensors
        rw [h.tensors, List.length_map]
        rw [mapM_tensors_rename (ρ := dictFind s.minimalIndices) s.tensors fun x hx i hi =>
          h.find hs hs' (mem_labelsOf.2 (mem_labelList.2 (Or.inr ⟨x, hx, hi⟩)))]
      rw [e1, e2]
    rw [hr]

theorem slotNames_rename {ρ ρ' : Index → Except PyErr Index} : ∀ (l : List Index) (tr : Index → Nat), (∀ i ∈ l, ρ' (f i) = ρ i) →
    slotNames ρ' tr (l.map f) = slotNames ρ tr l
  | [], _, _ => rfl
  | a :: l, tr, h => by
    rw [List.map_cons]
    simp only [slotNames]
    rw [h a (by simp)]
    cases ρ a with
    | error e => rfl
    | ok m =>
      simp only [bind, Except.bind]
      rw [slotNames_rename l _ fun i hi => h i (by simp [hi])]

theorem slotLabels_relabel (ts : List Tensor) (op : SqOp) : slotLabels (ts.map (Tensor.relabel f)) (op.relabel f) = (slotLabels ts op).map f := by
  unfold slotLabels
  rw [List.map_append, List.map_append]
  congr 1
  induction ts with
  | nil => rfl
  | cons a l ih =>
    rw [List.map_cons, List.flatMap_cons, List.flatMap_cons, List.map_append, ih, List.map_append]
    rfl

theorem Renamed.sympyTail (h : Renamed s s' f) (hs : labelsOf s.tensors s.sqOp ⊆ s.indicesSet)
    (hs' : labelsOf s'.tensors s'.sqOp ⊆ s'.indicesSet) (hty : s.sqOp.upper.ty = s.sqOp.lower.ty)
    (canon : List Nat → List (Nat × Nat) → List SlotGroup → Option (List Nat)) (hermitian : Bool) :
    sympyTail canon hermitian s' = sympyTail canon hermitian s := by
  unfold Dsrg.sympyTail
  rw [h.isVoid, h.coeff]
  by_cases hv : s.isVoid = true
  · rw [if_pos hv, if_pos hv]
    unfold Term.void IndicesPair.void
    rw [h.op]
    rfl
  · rw [if_neg hv, if_neg hv]
    have hD : sortedDummies s'.minimalIndices = sortedDummies s.minimalIndices := by
      rw [h.minimalIndices hs hs']
      unfold sortedDummies renameKeys
      rw [List.map_map]
      rfl
    have hN : slotNames (dictFind s'.minimalIndices) (fun m => 2 * (sortedDummies s.minimalIndices).idxOf m) (slotLabels s'.tensors s'.sqOp) =
        slotNames (dictFind s.minimalIndices) (fun m => 2 * (sortedDummies s.minimalIndices).idxOf m) (slotLabels s.tensors s.sqOp) := by
      rw [h.tensors, h.op, slotLabels_relabel]
      exact slotNames_rename _ _ fun i hi => h.find hs hs' (mem_labelsOf.2 ((slotLabels_perm _ _).mem_iff.1 hi))
    have hfe : s'.tensors.map Tensor.form = s.tensors.map Tensor.form := by
      rw [h.tensors, List.map_map]
      apply List.map_congr_left
      intro x _
      simp [Tensor.form, Tensor.relabel, Tensor.upper, Tensor.lower]
    have hof : SqOp.form s'.sqOp = SqOp.form s.sqOp := by
      rw [h.op]
      simp [SqOp.form, IndicesPair.relabel, hty]
    have hsz : IndicesPair.size s'.sqOp = IndicesPair.size s.sqOp := by
      simp only [SqOp.form, Prod.mk.injEq] at hof
      exact congrArg₂ (· + ·) hof.2.2.1 hof.2.2.2
    simp only []
    rw [hD, hN, bsgsList_congr hfe hof, hsz]
    have hB : ∀ D gc, rebuildOp D s'.sqOp gc = rebuildOp D s.sqOp gc := fun D gc => rebuildOp_congr hof gc
    have hT : ∀ D gc, rebuildTensors D s'.tensors gc = rebuildTensors D s.tensors gc := fun D gc => rebuildTensors_congr hfe gc
    simp only [hB, hT]

end

end Dsrg
