import Verif.Lemmas.Simplify
import Verif.Lemmas.Factories
import Verif.Props.IndexLists

/-!
Canonical tensors and terms, and their values.
-/

namespace Dsrg

section
variable {O R M : Type} [CommRing R] [AddCommGroup M]

theorem antisymmFn_map {ι : Type} {F : List O → M} (h : ∀ pre a b post, F (pre ++ b :: a :: post) = - F (pre ++ a :: b :: post))
    (σ : ι → O) : AntisymmFn fun l : List ι => F (l.map σ) := by
  intro pre post a b _
  simp only [List.map_append, List.map_cons]
  exact h _ _ _ _

theorem canonicalize_fn {F : List O → M} (h : ∀ pre a b post, F (pre ++ b :: a :: post) = - F (pre ++ a :: b :: post))
    (σ : Index → O) (x : Indices) (hx : x.list.Nodup) : F (x.list.map σ) = x.canonicalize.2 • F (x.canonicalize.1.list.map σ) := by
  by_cases ha : x.ty.isAntisym = true
  · obtain ⟨-, h2, h3, h4⟩ := canonicalize_list x ha hx
    rw [h4]
    exact (antisymmFn_map h σ).sorted hx h2.symm (h3.imp le_of_lt)
  · rw [Indices.canonicalize, if_neg ha]; simp

/-- The value of a tensor is the sign times the value of the canonical tensor. -/
theorem Interp.tval_canonicalize {I : Interp O R M} (hI : I.Antisymmetric) (σ : Index → O) (t : Tensor) (hu : t.upper.list.Nodup)
    (hl : t.lower.list.Nodup) : I.tval σ t = (t.canonicalize.2 : R) * I.tval σ t.canonicalize.1 := by
  unfold Interp.tval
  rw [canonicalize_fn (F := fun u => I.tensor t.cls t.name u (t.lower.list.map σ)) (fun pre a b post => hI.upper _ _ pre a b post _) σ
    t.upper hu]
  rw [canonicalize_fn (F := fun l => I.tensor t.cls t.name (t.upper.canonicalize.1.list.map σ) l)
    (fun pre a b post => hI.lower _ _ _ pre a b post) σ t.lower hl]
  rw [smul_smul, zsmul_eq_mul]
  rfl

/-- The value of an operator string is the sign times the value of the canonical string. -/
theorem Interp.opval_canonicalize {I : Interp O R M} (hI : I.Antisymmetric) (σ : Index → O) (op : SqOp) (hu : op.upper.list.Nodup)
    (hl : op.lower.list.Nodup) : I.opval σ op = op.canonicalize.2 • I.opval σ op.canonicalize.1 := by
  unfold Interp.opval
  rw [canonicalize_fn (F := fun u => I.op u (op.lower.list.map σ)) (fun pre a b post => hI.opUpper pre a b post _) σ op.upper hu]
  rw [canonicalize_fn (F := fun l => I.op (op.upper.canonicalize.1.list.map σ) l) (fun pre a b post => hI.opLower _ pre a b post) σ op.lower hl]
  rw [smul_smul]
  rfl

theorem canonicalize_perm (x : Indices) : x.canonicalize.1.list.Perm x.list := by
  rw [Indices.canonicalize]
  split_ifs
  · exact .refl _
  · exact (sortCount_spec x.list).1
  · exact .refl _

theorem labelList_canonicalize (ts : List Tensor) (op : SqOp) :
    (labelList (ts.map fun t => t.canonicalize.1) op.canonicalize.1).Perm (labelList ts op) := by
  unfold labelList
  refine List.Perm.append (List.Perm.append (canonicalize_perm _) (canonicalize_perm _)) ?_
  rw [List.flatMap_map]
  induction ts with
  | nil => exact .refl _
  | cons t ts ih =>
    rw [List.flatMap_cons, List.flatMap_cons]
    exact List.Perm.append (List.Perm.append (canonicalize_perm _) (canonicalize_perm _)) ih

theorem Interp.pval_canonicalize {I : Interp O R M} (hI : I.Antisymmetric) (σ : Index → O) (ts : List Tensor)
    (hts : ∀ t ∈ ts, t.upper.list.Nodup ∧ t.lower.list.Nodup) :
    I.pval σ ts = ((ts.map fun t => t.canonicalize.2).prod : Int) * I.pval σ (ts.map fun t => t.canonicalize.1) := by
  unfold Interp.pval
  induction ts with
  | nil => simp
  | cons t ts ih =>
    rw [List.map_cons, List.map_cons, List.map_cons, List.map_cons, List.prod_cons, List.prod_cons, List.prod_cons]
    rw [ih (fun t ht => hts t (by simp [ht])), I.tval_canonicalize hI _ t (hts t (by simp)).1 (hts t (by simp)).2]
    push_cast; ring

variable [Fintype O] [DecidableEq O] [Inhabited O] [Algebra ℚ R] [Module R M]

/-- Canonicalising all factors multiplies the value by the product of the signs. -/
theorem Interp.value_canonicalize {I : Interp O R M} (hI : I.Antisymmetric) (orb : Orbitals O) (c : ℚ) (ts : List Tensor) (op : SqOp)
    (hts : ∀ t ∈ ts, t.upper.list.Nodup ∧ t.lower.list.Nodup) (hop : op.upper.list.Nodup ∧ op.lower.list.Nodup) :
    I.value orb (c * (op.canonicalize.2 * (ts.map fun t => t.canonicalize.2).prod : Int)) (ts.map fun t => t.canonicalize.1)
      op.canonicalize.1 = I.value orb c ts op := by
  have hlab : labelsOf (ts.map fun t => t.canonicalize.1) op.canonicalize.1 = labelsOf ts op := by
    ext i; rw [mem_labelsOf, mem_labelsOf, (labelList_canonicalize ts op).mem_iff]
  unfold Interp.value
  rw [hlab, map_mul, mul_smul]
  congr 1
  rw [Finset.smul_sum]
  refine Finset.sum_congr rfl fun σ _ => ?_
  rw [I.pval_canonicalize hI _ ts hts, I.opval_canonicalize hI _ op hop.1 hop.2]
  rw [← Int.cast_smul_eq_zsmul R, smul_smul, smul_smul]
  congr 1
  rw [map_intCast, Int.cast_mul]
  ring

end

/-! ### The cached label set after `simplify` -/

theorem downgradeCumulants_pairs {core : Bool} {diag : Finset Index} : ∀ (ts : List Tensor) (st : ReplState) (r : ReplState × List Tensor),
    downgradeCumulants core diag st ts = .ok r → List.Forall₂ (fun t t' : Tensor => t'.pair = t.pair) ts r.2 := by
  intro ts
  induction ts with
  | nil =>
    intro st r h
    simp only [downgradeCumulants, pure, Except.pure, Except.ok.injEq] at h
    subst h; exact .nil
  | cons t ts ih =>
    intro st r h
    simp only [downgradeCumulants, bind, Except.bind] at h
    cases hs : downgradeStep core diag st t with
    | error e => rw [hs] at h; simp at h
    | ok q =>
      rw [hs] at h
      simp only [] at h
      cases hr : downgradeCumulants core diag q.1 ts with
      | error e => rw [hr] at h; simp at h
      | ok qs =>
        rw [hr] at h
        simp only [pure, Except.pure, Except.ok.injEq] at h
        subst h
        refine .cons ?_ (ih _ _ hr)
        unfold downgradeStep at hs
        by_cases hc : t.cls = .cumulant
        · rw [if_pos hc] at hs
          simp only [bind, Except.bind, pure, Except.pure] at hs
          cases hn : t.pair.nBody with
          | error e => rw [hn] at hs; simp at hs
          | ok n =>
            rw [hn] at hs
            simp only [] at hs
            by_cases hn1 : n ≠ 1
            · rw [if_pos hn1] at hs
              simp only [Except.ok.injEq] at hs
              subst hs; rfl
            · rw [if_neg hn1] at hs
              cases hd : t.downgradeIndices with
              | error e => rw [hd] at hs; simp at hs
              | ok o =>
                rw [hd] at hs
                cases o with
                | none => simp at hs
                | some s =>
                  simp only [] at hs
                  by_cases hk : s.kind = .c ∧ core = true
                  · rw [if_pos hk] at hs
                    cases hm : Tensor.make .kronecker t.upper t.lower ['K'] (-1) with
                    | error e => rw [hm] at hs; simp at hs
                    | ok k =>
                      rw [hm] at hs
                      simp only [Except.ok.injEq] at hs
                      subst hs
                      obtain ⟨rfl, -⟩ := Tensor.make_eq hm
                      rfl
                  · rw [if_neg hk] at hs
                    simp only [Except.ok.injEq] at hs
                    subst hs; rfl
        · rw [if_neg hc] at hs
          simp only [pure, Except.pure, Except.ok.injEq] at hs
          subst hs; rfl

theorem removeDeltas_sub {diag : Finset Index} : ∀ (ts : List Tensor) (st : ReplState) (r : ReplState × List Tensor),
    removeDeltas diag st ts = .ok r → ∀ x ∈ r.2, x ∈ ts := by
  intro ts
  induction ts with
  | nil =>
    intro st r h
    simp only [removeDeltas, pure, Except.pure, Except.ok.injEq] at h
    subst h; simp
  | cons t ts ih =>
    intro st r h
    simp only [removeDeltas] at h
    split_ifs at h with hk
    · simp only [bind, Except.bind] at h
      cases hs : deltaStep diag st t with
      | error e => rw [hs] at h; simp at h
      | ok st' =>
        rw [hs] at h
        intro x hx
        exact List.mem_cons_of_mem _ (ih _ _ h x hx)
    · simp only [bind, Except.bind] at h
      cases hr : removeDeltas diag st ts with
      | error e => rw [hr] at h; simp at h
      | ok q =>
        rw [hr] at h
        simp only [pure, Except.pure, Except.ok.injEq] at h
        subst h
        intro x hx
        rcases List.mem_cons.1 hx with rfl | hx
        · simp
        · exact List.mem_cons_of_mem _ (ih _ _ hr x hx)

theorem diagonalLoop_keys {ord : SetOrder} {rd : Index → Finset Index} : ∀ (L : List Index)
    (q r : (Index → Index) × (Space → Nat) × Finset Index), diagonalLoop ord rd L q = .ok r → q.2.2 ⊆ r.2.2 := by
  intro L
  induction L with
  | nil =>
    intro q r h
    simp only [diagonalLoop, pure, Except.pure, Except.ok.injEq] at h
    subst h; exact subset_rfl
  | cons i L ih =>
    intro q r h
    obtain ⟨repl, next, ks⟩ := q
    simp only [diagonalLoop, bind, Except.bind] at h
    cases hs : findSpaceLabel ((rd i).inf fun j => j.space.relation)
        ((ord.spaces ((rd i).inf fun j => j.space.relation)).headD ⟨.g, false⟩) with
    | error e => rw [hs] at h; simp at h
    | ok so =>
      rw [hs] at h
      cases so with
      | none => simp at h
      | some s => exact fun x hx => ih _ _ h (Finset.mem_union_left _ hx)

/-- After `simplify` the coefficient is unchanged or zero, and the cached label set still contains all labels. -/
theorem Term.simplify_shape {ord : SetOrder} {t t' : Term} {core removeActive : Bool}
    (hw : labelsOf t.tensors t.sqOp ⊆ t.indicesSet) (h : t.simplify ord core removeActive = .ok t') :
    labelsOf t'.tensors t'.sqOp ⊆ t'.indicesSet ∧ (t'.coeff = t.coeff ∨ t'.coeff = 0) := by
  unfold Term.simplify at h
  simp only [bind, Except.bind] at h
  cases hcu : downgradeCumulants core t.diag ⟨id, t.nextNum, fun i => {i}⟩ t.tensors with
  | error e => rw [hcu] at h; simp at h
  | ok cu =>
  rw [hcu] at h
  simp only [] at h
  cases hde : removeDeltas t.diag ⟨cu.1.repl, cu.1.next, fun i => {i}⟩ cu.2 with
  | error e => rw [hde] at h; simp at h
  | ok de =>
  rw [hde] at h
  simp only [] at h
  cases hlo : diagonalLoop ord (fun i => cu.1.rdiag i ∪ de.1.rdiag i) (ord.indices t.diag) (de.1.repl, de.1.next, t.indicesSet) with
  | error e => rw [hlo] at h; simp at h
  | ok st =>
  rw [hlo] at h
  simp only [] at h
  cases hop : replaceSqOp (lookupIn st.2.2 st.1) t.sqOp with
  | error e => rw [hop] at h; simp at h
  | ok op =>
  rw [hop] at h
  simp only [] at h
  by_cases hv : (removeActive && de.2.any (allActiveAmplitude st.1)) = true
  · rw [if_pos hv] at h
    simp only [pure, Except.pure, Except.ok.injEq] at h
    subst h
    exact ⟨by simp [labelsOf, IndicesPair.void], Or.inr rfl⟩
  · rw [if_neg hv] at h
    cases hts : replaceTensors (lookupIn st.2.2 st.1) de.2 with
    | error e => rw [hts] at h; simp at h
    | ok ts =>
      rw [hts] at h
      simp only [pure, Except.pure, Except.ok.injEq] at h
      subst h
      refine ⟨?_, Or.inl rfl⟩
      obtain ⟨rfl, -⟩ := replaceSqOp_ok (realizes_lookupIn _ _) hop
      obtain ⟨-, rfl, -⟩ := replaceTensors_ok (realizes_lookupIn _ _) hts
      simp only []
      rw [labelsOf_relabel]
      apply Finset.image_subset_image
      refine subset_trans ?_ (diagonalLoop_keys _ _ _ hlo)
      intro i hi
      apply hw
      rw [mem_labelsOf, mem_labelList] at hi ⊢
      rcases hi with hi | ⟨x, hx, hi⟩
      · exact Or.inl hi
      · obtain ⟨a, ha, hP⟩ := forall₂_mem (downgradeCumulants_pairs _ _ _ hcu) (removeDeltas_sub _ _ _ hde x hx)
        exact Or.inr ⟨a, ha, by rw [← hP]; exact hi⟩

section
variable {O R M : Type} [CommRing R] [AddCommGroup M] [Fintype O] [DecidableEq O] [Inhabited O] [Algebra ℚ R] [Module R M]

theorem Interp.value_zero (I : Interp O R M) (orb : Orbitals O) (ts : List Tensor) (op : SqOp) : I.value orb 0 ts op = 0 := by
  simp [Interp.value]

/-- The relabelled canonical term has the value of the simplified one, minimal labels and sorted index lists. -/
theorem Term.relabel_spec {s r : Term} (hs : labelsOf s.tensors s.sqOp ⊆ s.indicesSet) {q : Int × List Tensor × SqOp}
    (hq : relabelIndices (dictFind s.minimalIndices) s.tensors s.sqOp = .ok q) (hr : Term.make q.2.1 q.2.2 (s.coeff * q.1) = .ok r) :
    (∀ (I : Interp O R M) (orb : Orbitals O), I.Antisymmetric →
      I.value orb r.coeff r.tensors r.sqOp = I.value orb s.coeff s.tensors s.sqOp) ∧
    (∀ i ∈ labelsOf r.tensors r.sqOp, ∀ m < i.number, (⟨i.space, m⟩ : Index) ∈ labelsOf r.tensors r.sqOp) ∧
    (∀ x ∈ r.tensors, (x.upper.ty.isAntisym = true → x.upper.list.Pairwise (· < ·)) ∧ (x.lower.ty.isAntisym = true → x.lower.list.Pairwise (· < ·))) ∧
    ((r.sqOp.upper.ty.isAntisym = true → r.sqOp.upper.list.Pairwise (· < ·)) ∧
      (r.sqOp.lower.ty.isAntisym = true → r.sqOp.lower.list.Pairwise (· < ·))) := by
  obtain ⟨next, hm, hkeys⟩ := minimalIndices_spec s hs
  set f := dictFun s.minimalIndices with hf
  unfold relabelIndices at hq
  simp only [bind, Except.bind] at hq
  cases hop : replaceSqOp (dictFind s.minimalIndices) s.sqOp with
  | error e => rw [hop] at hq; simp at hq
  | ok op =>
  rw [hop] at hq
  simp only [] at hq
  cases hts : replaceTensors (dictFind s.minimalIndices) s.tensors with
  | error e => rw [hts] at hq; simp at hq
  | ok ts =>
  rw [hts] at hq
  simp only [pure, Except.pure, Except.ok.injEq] at hq
  subst hq
  obtain ⟨rfl, ho1, ho2⟩ := replaceSqOp_ok (realizes_dictFind _) hop
  obtain ⟨-, rfl, hn⟩ := replaceTensors_ok (realizes_dictFind _) hts
  obtain ⟨-, -, -, rfl⟩ := Term.make_ok.1 hr
  have hspace : ∀ i ∈ labelsOf s.tensors s.sqOp, (f i).space = i.space := by
    intro i hi
    exact hm.space _ (dictFind_ok hm.keys ((hkeys i).2 hi)).2
  have hinj : ∀ i ∈ labelsOf s.tensors s.sqOp, ∀ j ∈ labelsOf s.tensors s.sqOp, f i = f j → i = j :=
    fun i hi j hj e => hm.injOn ((hkeys i).2 hi) ((hkeys j).2 hj) e
  have hnd : ∀ t ∈ s.tensors.map (Tensor.relabel f), t.upper.list.Nodup ∧ t.lower.list.Nodup := by
    intro t ht
    obtain ⟨x, hx, rfl⟩ := List.mem_map.1 ht
    exact hn x hx
  have hlabels : labelsOf (sortTensors ((s.tensors.map (Tensor.relabel f)).map fun t => t.canonicalize.1))
      (s.sqOp.relabel f).canonicalize.1 = (labelsOf s.tensors s.sqOp).image f := by
    rw [labelsOf_perm (sortTensors_perm _)]
    ext i
    rw [mem_labelsOf, (labelList_canonicalize _ _).mem_iff, ← mem_labelsOf, labelsOf_relabel]
  refine ⟨?_, ?_, ?_, ?_⟩
  · intro I orb hI
    rw [I.value_perm orb _ (sortTensors_perm _)]
    rw [I.value_canonicalize hI orb s.coeff _ _ hnd ⟨ho1, ho2⟩, I.value_relabel orb _ _ _ f hinj hspace]
  · intro i hi m hlt
    simp only [] at hi ⊢
    rw [hlabels] at hi ⊢
    obtain ⟨j, hj, rfl⟩ := Finset.mem_image.1 hi
    have hjd := (dictFind_ok hm.keys ((hkeys j).2 hj)).2
    have := hm.lt _ hjd
    obtain ⟨e, he, hee⟩ := hm.all (f j).space m (lt_trans hlt this)
    rw [Finset.mem_image]
    have hek : e.1 ∈ s.minimalIndices.map Prod.fst := List.mem_map_of_mem he
    refine ⟨e.1, (hkeys e.1).1 hek, ?_⟩
    have h1 := (dictFind_ok hm.keys hek).2
    have h2 := List.inj_on_of_nodup_map hm.keys h1 he rfl
    rw [← hee, ← h2]
  · intro x hx
    rw [(sortTensors_perm _).mem_iff, List.mem_map] at hx
    obtain ⟨y, hy, rfl⟩ := hx
    obtain ⟨n1, n2⟩ := hnd y hy
    have key : ∀ z : Indices, z.list.Nodup → z.canonicalize.1.ty.isAntisym = true → z.canonicalize.1.list.Pairwise (· < ·) := by
      intro z hz ha
      by_cases hza : z.ty.isAntisym = true
      · exact (canonicalize_list z hza hz).2.2.1
      · rw [Indices.canonicalize, if_neg hza] at ha; exact absurd ha hza
    exact ⟨key y.upper n1, key y.lower n2⟩
  · have key : ∀ z : Indices, z.list.Nodup → z.canonicalize.1.ty.isAntisym = true → z.canonicalize.1.list.Pairwise (· < ·) := by
      intro z hz ha
      by_cases hza : z.ty.isAntisym = true
      · exact (canonicalize_list z hza hz).2.2.1
      · rw [Indices.canonicalize, if_neg hza] at ha; exact absurd ha hza
    exact ⟨key (s.sqOp.relabel f).upper ho1, key (s.sqOp.relabel f).lower ho2⟩

end

end Dsrg
