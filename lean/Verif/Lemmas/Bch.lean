import Verif.Lemmas.SympyTidy
import Verif.Lemmas.ContractValue
import Verif.Lemmas.Ddca
import Verif.Lemmas.NestedWords
import Verif.Props.Blocks
import Verif.Model.Bch
import Verif.Spec.Bch

/-!
Terms that appear in nested commutators: what holds for all of them.
-/

namespace Dsrg

/-- The tensors of nested commutators. -/
def UsualKind (x : Tensor) : Prop :=
  ((x.cls = .cumulant ∨ x.cls = .hole ∨ x.cls = .kronecker) ∧ x.name = x.cls.defaultName ∧ x.priority = x.cls.defaultPriority) ∨ (x.cls = .hamiltonian ∧ x.name = ['H'] ∧ x.priority = 0) ∨ (x.cls = .cluster ∧ x.name = ['T'] ∧ x.priority = 1)

/-- A term of a nested commutator. -/
structure GoodTerm (t : Term) : Prop where
  kind : ∀ x ∈ t.tensors, UsualKind x
  tensor : ∀ x ∈ t.tensors, x.upper.ty = .spinOrbital ∧ x.lower.ty = .spinOrbital
  op : SpinOrbitalOp t.sqOp
  tidy : Tidy t.tensors t.sqOp
  bal : t.sqOp.upper.list.length = t.sqOp.lower.list.length

theorem UsualKind.consistent {x y : Tensor} (hx : UsualKind x) (hy : UsualKind y) (h : x.name = y.name) :
    x.cls = y.cls ∧ x.priority = y.priority := by
  have key : ∀ z : Tensor, UsualKind z → (z.cls = .cumulant ∧ z.name = ['L'] ∧ z.priority = TCls.cumulant.defaultPriority) ∨
      (z.cls = .hole ∧ z.name = ['C'] ∧ z.priority = TCls.hole.defaultPriority) ∨
      (z.cls = .kronecker ∧ z.name = ['K'] ∧ z.priority = TCls.kronecker.defaultPriority) ∨
      (z.cls = .hamiltonian ∧ z.name = ['H'] ∧ z.priority = 0) ∨ (z.cls = .cluster ∧ z.name = ['T'] ∧ z.priority = 1) := by
    rintro z (hz | hz | hz)
    · have h1 := hz.2.1
      have h2 := hz.2.2
      rcases hz.1 with h | h | h <;> rw [h] at h1 h2
      · exact Or.inl ⟨h, h1, h2⟩
      · exact Or.inr (Or.inl ⟨h, h1, h2⟩)
      · exact Or.inr (Or.inr (Or.inl ⟨h, h1, h2⟩))
    · exact Or.inr (Or.inr (Or.inr (Or.inl hz)))
    · exact Or.inr (Or.inr (Or.inr (Or.inr hz)))
  rcases key x hx with ⟨a1, a2, a3⟩ | ⟨a1, a2, a3⟩ | ⟨a1, a2, a3⟩ | ⟨a1, a2, a3⟩ | ⟨a1, a2, a3⟩ <;>
  rcases key y hy with ⟨b1, b2, b3⟩ | ⟨b1, b2, b3⟩ | ⟨b1, b2, b3⟩ | ⟨b1, b2, b3⟩ | ⟨b1, b2, b3⟩ <;>
  rw [a2, b2] at h <;>
  first
  | exact ⟨a1.trans b1.symm, a3.trans b3.symm⟩
  | exact absurd h (by decide)

theorem UsualKind.name {x : Tensor} (hx : UsualKind x) : '^' ∉ x.name ∧ ' ' ∉ x.name := by
  rcases hx with h | h | h
  · rw [h.2.1]
    rcases h.1 with h | h | h <;> rw [h] <;> decide
  · rw [h.2.1]; decide
  · rw [h.2.1]; decide

theorem labels_of_op {t : Term} {i : Index} (h : i ∈ t.sqOp.upper.list ++ t.sqOp.lower.list) : i ∈ labelsOf t.tensors t.sqOp :=
  mem_labelsOf.2 (mem_labelList.2 (Or.inl h))

theorem labels_of_tensor {t : Term} {x : Tensor} (hx : x ∈ t.tensors) {i : Index} (h : i ∈ x.upper.list ++ x.lower.list) :
    i ∈ labelsOf t.tensors t.sqOp :=
  mem_labelsOf.2 (mem_labelList.2 (Or.inr ⟨x, hx, h⟩))

theorem nodup_flatMap_apart {terms : List Term} (hd : terms.Pairwise DisjointLabels) {f : Term → List Index}
    (hf : ∀ t ∈ terms, (f t).Nodup) (hs : ∀ t ∈ terms, ∀ i ∈ f t, i ∈ labelsOf t.tensors t.sqOp) : (terms.flatMap f).Nodup := by
  rw [List.nodup_flatMap]
  refine ⟨hf, ?_⟩
  have := List.Pairwise.and_mem.1 hd
  refine this.imp ?_
  rintro a b ⟨ha, hb, hab⟩ i hi hi'
  exact Finset.disjoint_left.1 hab (hs a ha i hi) (hs b hb i hi')

theorem apart_eq {terms : List Term} (hd : terms.Pairwise DisjointLabels) {a b : Term} (ha : a ∈ terms) (hb : b ∈ terms) {i : Index}
    (hi : i ∈ labelsOf a.tensors a.sqOp) (hi' : i ∈ labelsOf b.tensors b.sqOp) : a = b := by
  by_contra hne
  have hs : Std.Symm DisjointLabels := ⟨fun a b h => Disjoint.symm h⟩
  exact Finset.disjoint_left.1 (List.Pairwise.forall (R := DisjointLabels) hd ha hb hne) hi hi'

theorem ordinary_of_good {terms : List Term} (h : ∀ t ∈ terms, GoodTerm t) (hd : terms.Pairwise DisjointLabels) : OrdinaryFactors terms where
  ops := by
    refine ⟨?_, ?_, ?_⟩
    · intro op hop
      obtain ⟨t, ht, rfl⟩ := List.mem_map.1 hop
      exact (h t ht).op
    · rw [List.flatMap_map]
      exact nodup_flatMap_apart hd (fun t ht => (h t ht).op.2.2.1.1) fun t ht i hi => labels_of_op (List.mem_append_left _ hi)
    · rw [List.flatMap_map]
      exact nodup_flatMap_apart hd (fun t ht => (h t ht).op.2.2.2.1) fun t ht i hi => labels_of_op (List.mem_append_right _ hi)
  tensor t ht := (h t ht).tensor
  name t ht x hx := ((h t ht).kind x hx).name
  kind t ht x hx t' ht' y hy e := ((h t ht).kind x hx).consistent ((h t' ht').kind y hy) e
  density t ht x hx cls hcls hn := by
    have hd : UsualKind ⟨cls, cls.defaultName, cls.defaultPriority, ⟨⟨.spinOrbital, []⟩, ⟨.spinOrbital, []⟩⟩⟩ :=
      Or.inl ⟨hcls, rfl, rfl⟩
    exact ((h t ht).kind x hx).consistent hd hn

theorem contractible_of_good {terms : List Term} (h : ∀ t ∈ terms, GoodTerm t) (hd : terms.Pairwise DisjointLabels) : ContractibleFactors terms where
  labels := nodup_flatMap_apart hd (fun t ht => (h t ht).tidy.op) fun t ht i hi => labels_of_op hi
  separated := by
    refine ⟨?_, ?_, ?_⟩
    · refine List.pairwise_of_forall_mem_list ?_
      intro a ha b hb hor
      obtain ⟨t, ht, hx⟩ := List.mem_flatMap.1 ha
      obtain ⟨t', ht', hx'⟩ := List.mem_flatMap.1 hb
      rcases hor with hor | hor
      · exact absurd hor.1 ((h t ht).tidy.noDelta a hx)
      · exact absurd hor.2 ((h t' ht').tidy.noDelta b hx')
    · intro a ha hδ
      obtain ⟨t, ht, hx⟩ := List.mem_flatMap.1 ha
      exact absurd hδ ((h t ht).tidy.noDelta a hx)
    · intro a ha hc hl
      obtain ⟨t, ht, hx⟩ := List.mem_flatMap.1 ha
      exact (h t ht).tidy.active a hx hc hl
  closed := by
    intro x hx hc i hi hi'
    obtain ⟨t, ht, hxt⟩ := List.mem_flatMap.1 hx
    obtain ⟨t', ht', hi'⟩ := List.mem_flatMap.1 hi'
    obtain rfl := apart_eq hd ht ht' (labels_of_tensor hxt hi) (labels_of_op hi')
    refine (h t ht).tidy.outside hxt ?_ i hi hi'
    rcases hc with hc | hc <;> simp [Tensor.isDensity, hc]
  offDiagonal := by
    intro x hx i hi hix
    obtain ⟨t, ht, hxt⟩ := List.mem_flatMap.1 hx
    obtain ⟨t', ht', hi'⟩ := List.mem_flatMap.1 hi
    obtain rfl := apart_eq hd ht ht' (labels_of_tensor hxt (List.mem_append_left _ hix.1)) (labels_of_op hi')
    refine (h t ht).tidy.diag (mem_diagonalOf.2 (Or.inr ⟨x, hxt, hix⟩)) ?_
    unfold outerList
    exact List.mem_append_left _ hi'
  balanced := by
    congr 1
    exact List.map_congr_left fun t ht => (h t ht).bal

theorem IsDensity.isDensity {d : Tensor} (h : IsDensity d) : d.isDensity = true := by
  rcases h.cls with h | h | h <;> simp [Tensor.isDensity, h]

theorem labelList_terms (terms : List Term) : ((allTensors terms).flatMap (fun t => t.upper.list ++ t.lower.list) ++ operatorLabels terms).Perm
    (terms.flatMap fun t => labelList t.tensors t.sqOp) := by
  induction terms with
  | nil => exact List.Perm.refl _
  | cons t terms ih =>
    have e1 : allTensors (t :: terms) = t.tensors ++ allTensors terms := List.flatMap_cons ..
    have e2 : operatorLabels (t :: terms) = (t.sqOp.upper.list ++ t.sqOp.lower.list) ++ operatorLabels terms := List.flatMap_cons ..
    rw [e1, e2, List.flatMap_append, List.flatMap_cons]
    refine List.Perm.trans ?_ (ih.append_left _)
    unfold labelList
    generalize t.tensors.flatMap _ = A
    generalize (allTensors terms).flatMap _ = B
    generalize t.sqOp.upper.list ++ t.sqOp.lower.list = C
    generalize operatorLabels terms = D
    rw [← Multiset.coe_eq_coe]
    simp only [← Multiset.coe_add]
    abel

theorem outerList_terms (terms : List Term) :
    (((allTensors terms).filter Tensor.isDensity).flatMap (fun t => t.upper.list ++ t.lower.list) ++ operatorLabels terms).Perm
    (terms.flatMap fun t => outerList t.tensors t.sqOp) := by
  induction terms with
  | nil => exact List.Perm.refl _
  | cons t terms ih =>
    have e1 : allTensors (t :: terms) = t.tensors ++ allTensors terms := List.flatMap_cons ..
    have e2 : operatorLabels (t :: terms) = (t.sqOp.upper.list ++ t.sqOp.lower.list) ++ operatorLabels terms := List.flatMap_cons ..
    rw [e1, e2, List.filter_append, List.flatMap_append, List.flatMap_cons]
    refine List.Perm.trans ?_ (ih.append_left _)
    unfold outerList
    generalize (t.tensors.filter _).flatMap _ = A
    generalize ((allTensors terms).filter _).flatMap _ = B
    generalize t.sqOp.upper.list ++ t.sqOp.lower.list = C
    generalize operatorLabels terms = D
    rw [← Multiset.coe_eq_coe]
    simp only [← Multiset.coe_add]
    abel

theorem count_flatMap_apart {terms : List Term} (hd : terms.Pairwise DisjointLabels) {t : Term} (ht : t ∈ terms) {i : Index}
    (hi : i ∈ labelsOf t.tensors t.sqOp) : (terms.flatMap fun t => labelList t.tensors t.sqOp).count i = (labelList t.tensors t.sqOp).count i := by
  induction terms with
  | nil => simp at ht
  | cons a terms ih =>
    rw [List.pairwise_cons] at hd
    rw [List.flatMap_cons, List.count_append]
    rcases List.mem_cons.1 ht with rfl | ht
    · have : (terms.flatMap fun t => labelList t.tensors t.sqOp).count i = 0 := by
        rw [List.count_eq_zero]
        intro h
        obtain ⟨b, hb, hib⟩ := List.mem_flatMap.1 h
        exact Finset.disjoint_left.1 (hd.1 b hb) hi (mem_labelsOf.2 hib)
      omega
    · have : (labelList a.tensors a.sqOp).count i = 0 := by
        rw [List.count_eq_zero]
        intro h
        exact Finset.disjoint_left.1 (hd.1 t ht) (mem_labelsOf.2 h) hi
      rw [this, ih hd.2 ht, Nat.zero_add]

/-- The term of a row is paired. -/
theorem row_paired {terms : List Term} (h : ∀ t ∈ terms, GoodTerm t) (hd : terms.Pairwise DisjointLabels) {maxCu maxOpen minOpen : Int}
    {expand : Bool} {c : List Tensor} (hA : Allowed (productOps terms) maxCu maxOpen minOpen c) {row : Row}
    (hrow : row ∈ resultRows (productOps terms) expand c) : Paired (allTensors terms ++ row.2.1) row.2.2 := by
  have ho := ordinary_of_good h hd
  have hk := contractible_of_good h hd
  have hl := row_labels (conserves (goodOps_productOps ho.ops) hA expand row hrow)
  have hden := resultRows_density hA row hrow
  have hL : (labelList (allTensors terms ++ row.2.1) row.2.2).Perm (terms.flatMap fun t => labelList t.tensors t.sqOp) := by
    refine List.Perm.trans ?_ (labelList_terms terms)
    refine List.Perm.trans ?_ (hl.append_left _)
    unfold labelList
    rw [List.flatMap_append]
    rw [← Multiset.coe_eq_coe]
    simp only [← Multiset.coe_add]
    abel
  have hO : (outerList (allTensors terms ++ row.2.1) row.2.2).Perm (terms.flatMap fun t => outerList t.tensors t.sqOp) := by
    refine List.Perm.trans ?_ (outerList_terms terms)
    refine List.Perm.trans ?_ (hl.append_left _)
    unfold outerList
    rw [List.filter_append, List.flatMap_append]
    have : row.2.1.filter Tensor.isDensity = row.2.1 := List.filter_eq_self.2 fun d hd => (hden d hd).isDensity
    rw [this, ← Multiset.coe_eq_coe]
    simp only [← Multiset.coe_add]
    abel
  refine ⟨?_, ?_, (row_separated ho hk hA hrow).active⟩
  · intro i hi
    rw [hL.mem_iff] at hi
    obtain ⟨t, ht, hit⟩ := List.mem_flatMap.1 hi
    rw [hL.count_eq, count_flatMap_apart hd ht (mem_labelsOf.2 hit)]
    exact (h t ht).tidy.two i hit
  · refine hO.symm.nodup (nodup_flatMap_apart hd (fun t ht => (h t ht).tidy.outer) ?_)
    intro t ht i hi
    unfold outerList at hi
    rcases List.mem_append.1 hi with hi | hi
    · exact labels_of_op hi
    · obtain ⟨x, hx, hi⟩ := List.mem_flatMap.1 hi
      exact labels_of_tensor (List.mem_filter.1 hx).1 hi

theorem card_flatMap_le (terms : List Term) :
    (terms.flatMap fun t => labelList t.tensors t.sqOp).toFinset.card ≤ (terms.map fun t => (labelsOf t.tensors t.sqOp).card).sum := by
  induction terms with
  | nil => simp
  | cons t terms ih =>
    rw [List.flatMap_cons, List.toFinset_append, List.map_cons, List.sum_cons]
    refine (Finset.card_union_le _ _).trans (Nat.add_le_add ?_ ih)
    refine Finset.card_le_card fun i hi => ?_
    rw [List.mem_toFinset] at hi
    exact mem_labelsOf.2 hi

/-- The number of labels of the term of a row. -/
theorem row_labels_card {terms : List Term} {maxOpen minOpen : Int} {row : Row} (hc : Conserves (productOps terms) maxOpen minOpen row) :
    (labelsOf (allTensors terms ++ row.2.1) row.2.2).card ≤ (terms.map fun t => (labelsOf t.tensors t.sqOp).card).sum := by
  rw [row_labelsOf hc, List.toFinset_eq_of_perm _ _ (labelList_terms terms)]
  exact card_flatMap_le terms

theorem rebuildOp_wf {D : List Index} {op op' : SqOp} {names : List Nat} (h : rebuildOp D op names = .ok op') : op'.upper.WF ∧ op'.lower.WF := by
  unfold rebuildOp at h
  simp only [bind, Except.bind] at h
  cases h1 : (names.take op.nLower).mapM (dummyAt D) with
  | error e => rw [h1] at h; simp at h
  | ok l =>
  rw [h1] at h
  simp only [] at h
  cases h2 : Indices.make op.upper.ty l with
  | error e => rw [h2] at h; simp at h
  | ok lo =>
  rw [h2] at h
  simp only [] at h
  cases h3 : ((names.drop op.nLower).take op.nUpper).mapM (dummyAt D) with
  | error e => rw [h3] at h; simp at h
  | ok u =>
  rw [h3] at h
  simp only [] at h
  cases h4 : Indices.make op.upper.ty u with
  | error e => rw [h4] at h; simp at h
  | ok up =>
  rw [h4] at h
  simp only [] at h
  obtain ⟨rfl, -⟩ := Indices.make_eq h2
  obtain ⟨rfl, -⟩ := Indices.make_eq h4
  obtain ⟨rfl, -⟩ := IndicesPair.make_eq h
  exact ⟨(Indices.wf_iff_make _).2 h4, (Indices.wf_iff_make _).2 h2⟩

theorem Term.canonicalizeSympy_wf {canon : SympyCanon} {ord : SetOrder} {t r : Term} {core removeActive hermitian : Bool}
    (hr : t.canonicalizeSympy canon ord core removeActive hermitian = .ok r) : r.sqOp.upper.WF ∧ r.sqOp.lower.WF := by
  unfold Term.canonicalizeSympy at hr
  simp only [bind, Except.bind] at hr
  cases hs : t.simplify ord core removeActive with
  | error e => rw [hs] at hr; simp at hr
  | ok s =>
  rw [hs] at hr
  simp only [] at hr
  by_cases hv : s.isVoid = true
  · rw [if_pos hv] at hr
    unfold Term.void at hr
    obtain ⟨-, -, -, rfl⟩ := Term.make_ok.1 hr
    simp [IndicesPair.void, Indices.WF]
  rw [if_neg hv] at hr
  cases hn : slotNames (dictFind s.minimalIndices) (fun m => 2 * (sortedDummies s.minimalIndices).idxOf m) (slotLabels s.tensors s.sqOp) with
  | error e => rw [hn] at hr; simp at hr
  | ok names =>
  rw [hn] at hr
  simp only [] at hr
  cases hbs : bsgsList s.tensors s.sqOp hermitian with
  | error e => rw [hbs] at hr; simp at hr
  | ok v =>
  rw [hbs] at hr
  simp only [] at hr
  split_ifs at hr with hpm
  cases hg : canon (names ++ [names.length, names.length + 1]) (dummyRanges 0 (spaceGroups (sortedDummies s.minimalIndices))) v with
  | none => rw [hg] at hr; simp at hr
  | some gc =>
  rw [hg] at hr
  simp only [] at hr
  cases hop : rebuildOp (sortedDummies s.minimalIndices) s.sqOp gc with
  | error e => rw [hop] at hr; simp at hr
  | ok op' =>
  rw [hop] at hr
  simp only [] at hr
  cases hts : rebuildTensors (sortedDummies s.minimalIndices) s.tensors (gc.drop s.sqOp.size) with
  | error e => rw [hts] at hr; simp at hr
  | ok ts' =>
  rw [hts] at hr
  simp only [] at hr
  obtain ⟨-, -, -, rfl⟩ := Term.make_ok.1 hr
  exact rebuildOp_wf hop

/-- The labels of a term are few, and their numbers small. -/
structure SmallLabels (N : Nat) (t : Term) : Prop where
  card : (labelsOf t.tensors t.sqOp).card ≤ N
  number : ∀ i ∈ labelsOf t.tensors t.sqOp, i.number < N

theorem GoodTerm.of_same {x y : Term} (h : GoodTerm y) (e : x.Same y) : GoodTerm x := by
  obtain ⟨e1, e2⟩ := e
  exact ⟨e1 ▸ h.kind, e1 ▸ h.tensor, e2 ▸ h.op, e1 ▸ e2 ▸ h.tidy, e2 ▸ h.bal⟩

theorem SmallLabels.of_same {N : Nat} {x y : Term} (h : SmallLabels N y) (e : x.Same y) : SmallLabels N x := by
  obtain ⟨e1, e2⟩ := e
  exact ⟨e1 ▸ e2 ▸ h.card, e1 ▸ e2 ▸ h.number⟩

/-- The canonicalized term of a row. -/
theorem canonicalizeRow_good {m : Machine} (hcanon : CanonContract m.canon) (hord : m.ord.Lawful) {terms : List Term} (h : ∀ t ∈ terms, GoodTerm t)
    (hd : terms.Pairwise DisjointLabels) {maxCu maxOpen minOpen : Int}
    {expand : Bool} {c : List Tensor} (hA : Allowed (productOps terms) maxCu maxOpen minOpen c) {row : Row}
    (hrow : row ∈ resultRows (productOps terms) expand c) {k : ℚ} {hermitian : Bool} {r : Term} (ho : OutTerm terms r)
    (hr : canonicalizeRow m (productTensors terms) k hermitian row = .ok r) :
    GoodTerm r ∧ SmallLabels (terms.map fun t => (labelsOf t.tensors t.sqOp).card).sum r := by
  have hof := ordinary_of_good h hd
  have hk := contractible_of_good h hd
  have hcons := conserves (goodOps_productOps hof.ops) hA expand row hrow
  have hden := resultRows_density hA row hrow
  have hu : ∀ x, KindOk terms x → UsualKind x := by
    rintro x (⟨t, ht, y, hy, e⟩ | ⟨d, hd, e⟩)
    · rw [kind_eq] at e
      have := (h t ht).kind y hy
      unfold UsualKind at this ⊢
      rw [e.1, e.2.1, e.2.2.1]; exact this
    · rw [kind_eq] at e
      unfold UsualKind
      rw [e.1, e.2.1, e.2.2.1]; exact Or.inl ⟨hd.cls, hd.name, hd.priority⟩
  unfold canonicalizeRow at hr
  simp only [bind, Except.bind] at hr
  cases ht : Term.make (productTensors terms ++ row.2.1) row.2.2 (row.1 * k) with
  | error e => rw [ht] at hr; simp at hr
  | ok t =>
  rw [ht] at hr
  simp only [] at hr
  have hw := Term.wf_of_make ht
  have hwf := Term.canonicalizeSympy_wf hr
  have hlab := Term.canonicalizeSympy_labels hw.set_sub hr
  obtain ⟨-, -, -, rfl⟩ := Term.make_ok.1 ht
  have hp := (row_paired h hd hA hrow).perm (sortTensors_perm (productTensors terms ++ row.2.1)).symm
  have hkind : ∀ x ∈ productTensors terms ++ row.2.1, UsualKind x := by
    intro x hx
    rcases List.mem_append.1 hx with hx | hx
    · obtain ⟨t, ht, hx⟩ := List.mem_flatMap.1 hx
      exact (h t ht).kind x hx
    · exact Or.inl ⟨(hden x hx).cls, (hden x hx).name, (hden x hx).priority⟩
  obtain ⟨h1, h2, -⟩ := Term.canonicalizeSympy_tidy hcanon hord hw (by
      ext i
      simp only [mem_diagonalOf, (sortTensors_perm _).mem_iff]) hp (row_balanced hof hk hA hrow)
    (fun x hx y hy e => ((hkind x ((sortTensors_perm _).mem_iff.1 hx)).consistent (hkind y ((sortTensors_perm _).mem_iff.1 hy)) e).1) hr
  have hcard : (labelsOf (sortTensors (productTensors terms ++ row.2.1)) row.2.2).card ≤ (terms.map fun t => (labelsOf t.tensors t.sqOp).card).sum := by
    rw [labelsOf_perm (sortTensors_perm _)]; exact row_labels_card hcons
  refine ⟨⟨fun x hx => hu x (ho.tensor x hx).1, fun x hx => ?_, ⟨ho.upper, ho.lower, hwf.1, hwf.2⟩, h1, h2⟩, hlab.1.trans hcard, fun i hi => ?_⟩
  · have := hof.kind_ty (ho.tensor x hx).1
    exact ⟨this, (ho.tensor x hx).2.trans this⟩
  · exact lt_of_lt_of_le (hlab.2 i hi) hcard

theorem GoodTerm.congr {x y : Term} (h : GoodTerm y) (hp : x.tensors.Perm y.tensors) (ho : x.sqOp = y.sqOp) : GoodTerm x :=
  ⟨fun z hz => h.kind z (hp.mem_iff.1 hz), fun z hz => h.tensor z (hp.mem_iff.1 hz), ho ▸ h.op, ho ▸ h.tidy.perm hp.symm, ho ▸ h.bal⟩

theorem SmallLabels.congr {N : Nat} {x y : Term} (h : SmallLabels N y) (hp : x.tensors.Perm y.tensors) (ho : x.sqOp = y.sqOp) : SmallLabels N x := by
  have e : labelsOf x.tensors x.sqOp = labelsOf y.tensors y.sqOp := by rw [ho, labelsOf_perm hp]
  exact ⟨e ▸ h.card, e ▸ h.number⟩

theorem SmallLabels.mono {N N' : Nat} {x : Term} (h : SmallLabels N x) (hN : N ≤ N') : SmallLabels N' x :=
  ⟨h.card.trans hN, fun i hi => lt_of_lt_of_le (h.number i hi) hN⟩

theorem regular_of_good {l : List Term} (h : ∀ t ∈ l, GoodTerm t) : Regular .spinOrbital l where
  name t ht x hx := ((h t ht).kind x hx).name
  kind t ht x hx t' ht' y hy e := ((h t ht).kind x hx).consistent ((h t' ht').kind y hy) e
  tensor t ht := (h t ht).tensor
  op t ht := ⟨(h t ht).op.1, (h t ht).op.2.1⟩

theorem fromTerm_copy {t t' : Term} (h : t.fromTerm false false = .ok t') : t'.tensors.Perm t.tensors ∧ t'.sqOp = t.sqOp ∧ t'.coeff = t.coeff := by
  unfold Term.fromTerm at h
  simp only [bind, Except.bind] at h
  cases ho : t.sqOp.clone false with
  | error e => rw [ho] at h; simp at h
  | ok op =>
    rw [ho] at h
    obtain ⟨-, -, -, rfl⟩ := Term.make_ok.1 h
    unfold IndicesPair.clone at ho
    simp only [Bool.false_eq_true, if_false] at ho
    obtain ⟨rfl, -⟩ := IndicesPair.make_eq ho
    exact ⟨sortTensors_perm _, rfl, by simp⟩

/-- What all terms of a list satisfy. -/
def GoodList (N : Nat) (l : List Term) : Prop := ∀ t ∈ l, GoodTerm t ∧ SmallLabels N t

theorem GoodList.append {N : Nat} {l l' : List Term} (h : GoodList N l) (h' : GoodList N l') : GoodList N (l ++ l') := by
  intro t ht
  rcases List.mem_append.1 ht with ht | ht
  · exact h t ht
  · exact h' t ht

theorem GoodList.combine {N : Nat} {l out : List Term} (h : GoodList N l) (hc : combineTerms l = .ok out) : GoodList N out := by
  have hreg := regular_of_good fun t ht => (h t ht).1
  rw [combineTerms_eq hreg] at hc
  injection hc with hc
  subst hc
  intro x hx
  obtain ⟨t, ht, e⟩ := mem_combine_same hreg hx
  exact ⟨(h t ht).1.of_same e, (h t ht).2.of_same e⟩

theorem GoodList.copies {N : Nat} {l out : List Term} (h : GoodList N l) (hc : (l.mapM fun t => t.fromTerm false false) = .ok out) : GoodList N out := by
  intro x hx
  obtain ⟨t, ht, e⟩ := forall₂_mem_right (forall₂_of_mapM hc) hx
  obtain ⟨h1, h2, -⟩ := fromTerm_copy e
  exact ⟨(h t ht).1.congr h1 h2, (h t ht).2.congr h1 h2⟩

/-- What `contract_terms` returns. -/
theorem ContractRun.good {m : Machine} (hcanon : CanonContract m.canon) (hord : m.ord.Lawful) {o : Options} {terms : List Term}
    (h : ∀ t ∈ terms, GoodTerm t) (hd : terms.Pairwise DisjointLabels) (h2 : ¬ (productOps terms).length < 2) {scale : ℚ} {out : List Term}
    (hr : ContractRun m o terms scale out) : GoodList (terms.map fun t => (labelsOf t.tensors t.sqOp).card).sum out := by
  obtain ⟨batches, results, all, hb, hf, hrows, hres, -, hl, hreg, rfl⟩ := hr.spec (ordinary_of_good h hd) h2
  intro x hx
  obtain ⟨y, hy, e⟩ := mem_combine_same hreg hx
  obtain ⟨r, hr, e'⟩ := hl.same y hy
  obtain ⟨row, hrow, er⟩ := forall₂_mem_right hf hr
  obtain ⟨-, c, hA, hrc⟩ := hrows row hrow
  obtain ⟨g1, g2⟩ := canonicalizeRow_good hcanon hord h hd hA hrc (hres r hr).1 er
  exact ⟨(g1.of_same e').of_same e, (g2.of_same e').of_same e⟩

/-- What `single_commutator` returns. -/
theorem CommutatorRun.good {m : Machine} (hcanon : CanonContract m.canon) (hord : m.ord.Lawful) {o : Options} {a b : Term}
    (ha : GoodTerm a) (hb : GoodTerm b) (hd : DisjointLabels a b) {scale : ℚ} {out : List Term} (hr : CommutatorRun m o a b scale out) :
    GoodList ((labelsOf a.tensors a.sqOp).card + (labelsOf b.tensors b.sqOp).card) out := by
  have hab : ∀ t ∈ [a, b], GoodTerm t := by simp [ha, hb]
  have hba : ∀ t ∈ [b, a], GoodTerm t := by simp [ha, hb]
  have dab : [a, b].Pairwise DisjointLabels := by simpa using hd
  have dba : [b, a].Pairwise DisjointLabels := by
    have : DisjointLabels b a := Disjoint.symm hd
    simpa using this
  by_cases h2 : (productOps [a, b]).length < 2
  · rw [hr.trivial (ordinary_of_good hab dab) h2]; intro t ht; simp at ht
  · have h2' : ¬ (productOps [b, a]).length < 2 := by rw [← (productOps_swap a b).length_eq]; exact h2
    obtain ⟨o₁, o₂, r₁, r₂, hc⟩ := hr.parts h2
    have g₁ := r₁.good hcanon hord hab dab h2
    have g₂ := r₂.good hcanon hord hba dba h2'
    simp only [List.map_cons, List.map_nil, List.sum_cons, List.sum_nil, Nat.add_zero] at g₁ g₂
    rw [Nat.add_comm] at g₂
    exact (g₁.append g₂).combine hc

theorem CommutatorsRun.good {m : Machine} (hcanon : CanonContract m.canon) (hord : m.ord.Lawful) {o : Options} {scale : ℚ} {N : Nat} :
    ∀ {pairs : List (Term × Term)} {out : List Term},
    (∀ p ∈ pairs, GoodTerm p.1 ∧ GoodTerm p.2 ∧ DisjointLabels p.1 p.2 ∧
      (labelsOf p.1.tensors p.1.sqOp).card + (labelsOf p.2.tensors p.2.sqOp).card ≤ N) →
    CommutatorsRun m o scale pairs out → GoodList N out := by
  intro pairs
  induction pairs with
  | nil => intro out _ hr; rw [show out = [] from hr]; intro t ht; simp at ht
  | cons p pairs ih =>
    intro out h hr
    obtain ⟨o₁, o₂, r₁, r₂, rfl⟩ := hr
    obtain ⟨h1, h2, h3, h4⟩ := h p (by simp)
    refine GoodList.append ?_ (ih (fun q hq => h q (by simp [hq])) r₂)
    intro t ht
    obtain ⟨g1, g2⟩ := r₁.good hcanon hord h1 h2 h3 t ht
    exact ⟨g1, g2.mono h4⟩

/-! ### The factors -/

/-- A term with one tensor whose labels are those of the operator. -/
theorem oneTensor_good {t : Term} {x : Tensor} {A B : List Index} (ht : t.tensors = [x]) (hk : UsualKind x) (hnd : x.isDensity = false)
    (hu : x.upper = ⟨.spinOrbital, A⟩) (hl : x.lower = ⟨.spinOrbital, B⟩)
    (hop : (t.sqOp.upper = x.lower ∧ t.sqOp.lower = x.upper) ∨ (t.sqOp.upper = x.upper ∧ t.sqOp.lower = x.lower))
    (hn : (A ++ B).Nodup) (hb : ∀ i ∈ A ++ B, i.isBeta = false) (hlen : A.length = B.length) :
    GoodTerm t ∧ labelsOf t.tensors t.sqOp = (A ++ B).toFinset ∧ (labelsOf t.tensors t.sqOp).card = A.length + B.length := by
  have hperm : (t.sqOp.upper.list ++ t.sqOp.lower.list).Perm (A ++ B) := by
    rcases hop with ⟨e1, e2⟩ | ⟨e1, e2⟩ <;> rw [e1, e2, hu, hl]
    exact List.perm_append_comm
  have hL : (labelList t.tensors t.sqOp).Perm ((A ++ B) ++ (A ++ B)) := by
    unfold labelList
    rw [ht, List.flatMap_cons, List.flatMap_nil, List.append_nil, hu, hl]
    exact hperm.append_right _
  have hS : labelsOf t.tensors t.sqOp = (A ++ B).toFinset := by
    ext i
    rw [mem_labelsOf, hL.mem_iff, List.mem_toFinset, List.mem_append, or_self]
  have hwf : ∀ C : List Index, C.Nodup → (∀ i ∈ C, i ∈ A ++ B) → (⟨.spinOrbital, C⟩ : Indices).WF :=
    fun C hC hs => ⟨hC, fun _ i hi => hb i (hs i hi)⟩
  have hA := hwf A (List.nodup_append.1 hn).1 fun i hi => List.mem_append_left _ hi
  have hB := hwf B (List.nodup_append.1 hn).2.1 fun i hi => List.mem_append_right _ hi
  refine ⟨⟨?_, ?_, ?_, ⟨⟨?_, ?_, ?_⟩, ?_⟩, ?_⟩, hS, ?_⟩
  · rw [ht]; simpa using hk
  · rw [ht]; simp [hu, hl]
  · rcases hop with ⟨e1, e2⟩ | ⟨e1, e2⟩
    · refine ⟨by rw [e1, hl], by rw [e2, hu], by rw [e1, hl]; exact hB, by rw [e2, hu]; exact hA⟩
    · refine ⟨by rw [e1, hu], by rw [e2, hl], by rw [e1, hu]; exact hA, by rw [e2, hl]; exact hB⟩
  · intro i hi
    rw [hL.mem_iff] at hi
    rw [hL.count_eq, List.count_append, List.count_eq_one_of_mem hn (by rw [List.mem_append, or_self] at hi; exact hi)]
  · unfold outerList
    rw [ht, List.filter_cons_of_neg (by simp [hnd]), List.filter_nil, List.flatMap_nil, List.append_nil]
    exact hperm.symm.nodup hn
  · rw [ht]
    intro y hy hc
    rw [List.mem_singleton] at hy
    subst hy
    simp [Tensor.isDensity, hc] at hnd
  · rw [ht]
    intro y hy hδ
    rw [List.mem_singleton] at hy
    subst hy
    rw [hδ.isDensity] at hnd
    cases hnd
  · rcases hop with ⟨e1, e2⟩ | ⟨e1, e2⟩ <;> rw [e1, e2, hu, hl]
    · exact hlen.symm
    · exact hlen
  · rw [hS, List.toFinset_card_of_nodup hn, List.length_append]

theorem clusterOperator_priority {k start : Nat} {excitation : Bool} {name : PyStr} {scale : ℚ} {hole particle : Space} {ty : IType} {t : Term}
    (h : clusterOperator k start excitation name scale hole particle ty = .ok t) : ∀ x ∈ t.tensors, x.priority = 1 := by
  unfold clusterOperator at h
  simp only [bind, Except.bind] at h
  cases h1 : Indices.ofNames ty (labelNames hole start k) with
  | error e => rw [h1] at h; simp at h
  | ok a =>
  rw [h1] at h
  simp only [] at h
  cases h2 : Indices.ofNames ty (labelNames particle start k) with
  | error e => rw [h2] at h; simp at h
  | ok b =>
  rw [h2] at h
  simp only [] at h
  cases h3 : Tensor.make .cluster a b name 1 with
  | error e => rw [h3] at h; simp at h
  | ok x =>
  rw [h3] at h
  simp only [] at h
  obtain ⟨op, h⟩ : ∃ op, Term.make [x] op (scale / ((k.factorial ^ 2 : Nat) : ℚ)) = .ok t := by
    cases excitation
    · rw [if_neg (by simp)] at h
      cases h4 : IndicesPair.make a b with
      | error e => rw [h4] at h; simp at h
      | ok op => rw [h4] at h; exact ⟨op, h⟩
    · rw [if_pos rfl] at h
      cases h4 : IndicesPair.make b a with
      | error e => rw [h4] at h; simp at h
      | ok op => rw [h4] at h; exact ⟨op, h⟩
  obtain ⟨-, -, -, rfl⟩ := Term.make_ok.1 h
  obtain ⟨rfl, -⟩ := Tensor.make_eq h3
  intro y hy
  rw [(sortTensors_perm _).mem_iff, List.mem_singleton] at hy
  rw [hy]

theorem hamiltonianOperator_priority {k start : Nat} {ty : IType} {t : Term}
    (h : hamiltonianOperator k start ty = .ok t) : ∀ x ∈ t.tensors, x.priority = 0 := by
  unfold hamiltonianOperator at h
  simp only [bind, Except.bind] at h
  cases h1 : Indices.ofNames ty (labelNames ⟨.g, false⟩ (start + k) k) with
  | error e => rw [h1] at h; simp at h
  | ok a =>
  rw [h1] at h
  simp only [] at h
  cases h2 : Indices.ofNames ty (labelNames ⟨.g, false⟩ start k) with
  | error e => rw [h2] at h; simp at h
  | ok b =>
  rw [h2] at h
  simp only [] at h
  cases h3 : Tensor.make .hamiltonian a b ['H'] 0 with
  | error e => rw [h3] at h; simp at h
  | ok x =>
  rw [h3] at h
  simp only [] at h
  cases h4 : IndicesPair.make b a with
  | error e => rw [h4] at h; simp at h
  | ok op =>
  rw [h4] at h
  obtain ⟨-, -, -, rfl⟩ := Term.make_ok.1 h
  obtain ⟨rfl, -⟩ := Tensor.make_eq h3
  intro y hy
  rw [(sortTensors_perm _).mem_iff, List.mem_singleton] at hy
  rw [hy]

theorem length_consecutive (s : Space) (lo n : Nat) : (consecutive s lo n).length = n := by simp [consecutive]

/-- An amplitude of a nested commutator. -/
theorem cluster_good {k start : Nat} {excitation : Bool} {scale : ℚ} {singleRef : Bool} {t : Term}
    (h : clusterOperator k start excitation ['T'] scale (holeSpace singleRef) (particleSpace singleRef) .spinOrbital = .ok t) :
    GoodTerm t ∧ (labelsOf t.tensors t.sqOp).card = 2 * k ∧ t.coeff = scale / (k.factorial : ℚ) ^ 2 ∧
      t.sqOp.upper.list.length = k ∧ t.sqOp.lower.list.length = k ∧
      ∀ i ∈ labelsOf t.tensors t.sqOp, (i.space = holeSpace singleRef ∨ i.space = particleSpace singleRef) ∧ start ≤ i.number ∧ i.number < start + k := by
  have hb1 : (holeSpace singleRef).beta = false := by cases singleRef <;> rfl
  have hb2 : (particleSpace singleRef).beta = false := by cases singleRef <;> rfl
  have hne : holeSpace singleRef ≠ particleSpace singleRef := by cases singleRef <;> decide
  obtain ⟨t', x, h1, h2, h3, h4, h5, h6, h7, h8, h9⟩ := C38_cluster k start excitation ['T'] scale (holeSpace singleRef) (particleSpace singleRef) .spinOrbital
    (hb1.trans hb2.symm) fun _ => hb1
  rw [h] at h1
  injection h1 with h1
  subst h1
  have hp := clusterOperator_priority h x (by rw [h2]; simp)
  obtain ⟨g, hS, hcard⟩ := oneTensor_good (A := consecutive (holeSpace singleRef) start k) (B := consecutive (particleSpace singleRef) start k)
    h2 (Or.inr (Or.inr ⟨h3, h4, hp⟩)) (by simp [Tensor.isDensity, h3]) h5 h6
    (by cases excitation
        · exact Or.inr ⟨h7, h8⟩
        · exact Or.inl ⟨h7, h8⟩)
    (by
      rw [List.nodup_append]
      refine ⟨nodup_consecutive _ _ _, nodup_consecutive _ _ _, ?_⟩
      rintro i hi j hj rfl
      rw [mem_consecutive] at hi hj
      exact hne (hi.1.symm.trans hj.1))
    (by
      intro i hi
      rw [List.mem_append, mem_consecutive, mem_consecutive] at hi
      show i.space.beta = false
      rcases hi with hi | hi <;> rw [hi.1]
      · exact hb1
      · exact hb2)
    (by rw [length_consecutive, length_consecutive])
  refine ⟨g, ?_, h9, ?_, ?_, ?_⟩
  · rw [hcard, length_consecutive, length_consecutive]; omega
  · rw [h7]; cases excitation <;> simp [h5, h6, length_consecutive]
  · rw [h8]; cases excitation <;> simp [h5, h6, length_consecutive]
  · intro i hi
    rw [hS, List.mem_toFinset, List.mem_append, mem_consecutive, mem_consecutive] at hi
    rcases hi with hi | hi
    · exact ⟨Or.inl hi.1, hi.2⟩
    · exact ⟨Or.inr hi.1, hi.2⟩

/-- The Hamiltonian. -/
theorem hamiltonian_good_from {k start : Nat} {t : Term} (h : hamiltonianOperator k start .spinOrbital = .ok t) :
    GoodTerm t ∧ (labelsOf t.tensors t.sqOp).card = 2 * k ∧ t.coeff = 1 / (k.factorial : ℚ) ^ 2 ∧
      t.sqOp.upper.list.length = k ∧ t.sqOp.lower.list.length = k ∧
      ∀ i ∈ labelsOf t.tensors t.sqOp, i.space = ⟨.g, false⟩ ∧ start ≤ i.number ∧ i.number < start + 2 * k := by
  obtain ⟨t', x, h1, h2, h3, h4, h5, h6, h7, h8, h9⟩ := C38_hamiltonian k start .spinOrbital
  rw [h] at h1
  injection h1 with h1
  subst h1
  have hp := hamiltonianOperator_priority h x (by rw [h2]; simp)
  obtain ⟨g, hS, hcard⟩ := oneTensor_good (A := consecutive ⟨.g, false⟩ (start + k) k) (B := consecutive ⟨.g, false⟩ start k)
    h2 (Or.inr (Or.inl ⟨h3, h4, hp⟩)) (by simp [Tensor.isDensity, h3]) h5 h6 (Or.inl ⟨h7, h8⟩)
    (by
      rw [List.nodup_append]
      refine ⟨nodup_consecutive _ _ _, nodup_consecutive _ _ _, ?_⟩
      rintro i hi j hj rfl
      rw [mem_consecutive] at hi hj
      omega)
    (by
      intro i hi
      rw [List.mem_append, mem_consecutive, mem_consecutive] at hi
      show i.space.beta = false
      rcases hi with hi | hi <;> rw [hi.1])
    (by rw [length_consecutive, length_consecutive])
  refine ⟨g, ?_, h9, ?_, ?_, ?_⟩
  · rw [hcard, length_consecutive, length_consecutive]; omega
  · rw [h7]; simp [h6, length_consecutive]
  · rw [h8]; simp [h5, length_consecutive]
  · intro i hi
    rw [hS, List.mem_toFinset, List.mem_append, mem_consecutive, mem_consecutive] at hi
    rcases hi with hi | hi
    · exact ⟨hi.1, by omega, by omega⟩
    · exact ⟨hi.1, by omega, by omega⟩

theorem hamiltonian_good {k : Nat} {t : Term} (h : hamiltonianOperator k 0 .spinOrbital = .ok t) :
    GoodTerm t ∧ (labelsOf t.tensors t.sqOp).card = 2 * k ∧ t.coeff = 1 / (k.factorial : ℚ) ^ 2 ∧
      t.sqOp.upper.list.length = k ∧ t.sqOp.lower.list.length = k ∧
      ∀ i ∈ labelsOf t.tensors t.sqOp, i.space = ⟨.g, false⟩ ∧ i.number < 2 * k := by
  obtain ⟨h1, h2, h3, h4, h5, h6⟩ := hamiltonian_good_from h
  exact ⟨h1, h2, h3, h4, h5, fun i hi => ⟨(h6 i hi).1, by have := (h6 i hi).2.2; omega⟩⟩

/-- The rows of the expansion of a Hamiltonian. -/
theorem expand_good {ord : SetOrder} (hord : ord.Lawful) {k : Nat} {t : Term} (h : hamiltonianOperator k 0 .spinOrbital = .ok t) {rows : List Term}
    (hr : t.expandCompositeIndices ord true 0 = .ok rows) :
    ∀ r ∈ rows, GoodTerm r ∧ SmallLabels (2 * k) r ∧ r.coeff = 1 / (k.factorial : ℚ) ^ 2 ∧
      (∀ i ∈ labelsOf r.tensors r.sqOp, i.space = ⟨.c, false⟩ ∨ i.space = ⟨.v, false⟩) ∧
      ∃ x, r.tensors = [x] ∧ x.cls = .hamiltonian ∧ x.upper.list.length = k ∧ r.sqOp.upper = x.lower ∧ r.sqOp.lower = x.upper := by
  obtain ⟨g, hcard, hco, hul, hll, hlab⟩ := hamiltonian_good h
  have hset : t.indicesSet = labelsOf t.tensors t.sqOp := by
    have : ∃ ts op c, Term.make ts op c = .ok t := by
      unfold hamiltonianOperator at h
      simp only [bind, Except.bind] at h
      repeat' split at h
      all_goals first | cases h | exact ⟨_, _, _, h⟩
    obtain ⟨ts, op, c, ht⟩ := this
    obtain ⟨-, -, -, rfl⟩ := Term.make_ok.1 ht
    exact (labelsOf_perm (sortTensors_perm ts) op).symm
  unfold Term.expandCompositeIndices at hr
  intro r hrm
  obtain ⟨spaces, hsp, e⟩ := forall₂_mem_right (makeDdca_rows hr) hrm
  rw [List.mem_filter] at hsp
  obtain ⟨hsp, hkeep⟩ := hsp
  simp only [bind, Except.bind] at e
  set ρ := ddcaMap (ord.indices t.indicesSet) t.sqOp.indices spaces 0 with hρ
  cases hop : replaceSqOp (dictFind ρ) t.sqOp with
  | error x => rw [hop] at e; simp at e
  | ok op =>
  rw [hop] at e
  simp only [] at e
  cases hts : replaceTensors (dictFind ρ) t.tensors with
  | error x => rw [hts] at e; simp at e
  | ok ts =>
  rw [hts] at e
  simp only [] at e
  obtain ⟨rfl, hop2⟩ := replaceSqOp_ok (realizes_dictFind _) hop
  obtain ⟨-, rfl, hts2⟩ := replaceTensors_ok (realizes_dictFind _) hts
  have hndop : t.sqOp.indices.Nodup := g.tidy.op
  obtain ⟨t', x, h1, h2, h3, h4, h5, h6, h7, h8, -⟩ := C38_hamiltonian k 0 .spinOrbital
  rw [h] at h1
  injection h1 with h1
  subst h1
  have hp := hamiltonianOperator_priority h x (by rw [h2]; simp)
  have hidx : t.sqOp.indices = consecutive ⟨.g, false⟩ 0 k ++ consecutive ⟨.g, false⟩ (0 + k) k := by
    show t.sqOp.upper.list ++ t.sqOp.lower.list = _
    rw [h7, h8, h5, h6]
  have hin : ∀ i ∈ t.sqOp.indices, i ∈ labelsOf t.tensors t.sqOp := fun i hi => labels_of_op hi
  rw [mem_pyProduct] at hsp
  have hlen : t.sqOp.indices.length = spaces.length := by rw [hsp.length_eq, List.length_map]
  have ho : ∀ i, i ∈ ord.indices t.indicesSet ↔ i ∈ labelsOf t.tensors t.sqOp := fun i => by rw [hord.mem_indices, hset]
  obtain ⟨hinj, hspace, -, -, -⟩ := ddcaMap_spec 0 ho hndop hlen
  have hlt := ddcaMap_lt 0 ho hin hndop hlen
  rw [← hρ] at hinj hspace hlt
  have hcv : ∀ s ∈ spaces, s = ⟨.c, false⟩ ∨ s = ⟨.v, false⟩ := by
    intro s hs
    have hrel : ∃ i ∈ t.sqOp.indices, s ∈ i.space.relation := by
      obtain ⟨pool, hpool, hs'⟩ := forall₂_mem_left hsp hs
      obtain ⟨i, hi, rfl⟩ := List.mem_map.1 hpool
      exact ⟨i, hi, (hord.mem_spaces _ _).1 hs'⟩
    obtain ⟨i, hi, hs'⟩ := hrel
    rw [(hlab i (hin i hi)).1] at hs'
    have hna : s.kind ≠ .a := by
      unfold ddcaKeeps at hkeep
      have := (of_decide_eq_true hkeep).2.2 rfl
      rw [List.countP_eq_zero] at this
      simpa using this s hs
    clear hs
    revert hs' hna
    revert s
    decide
  have hfsp : ∀ i ∈ t.sqOp.indices, (dictFun ρ i).space = ⟨.c, false⟩ ∨ (dictFun ρ i).space = ⟨.v, false⟩ := by
    intro i hi
    refine hcv _ ?_
    rw [← hspace]
    exact List.mem_map_of_mem hi
  have hop' : labelsOf t.tensors t.sqOp = t.sqOp.indices.toFinset := by
    ext i
    rw [mem_labelsOf, mem_labelList, List.mem_toFinset, h2]
    simp only [List.mem_singleton, exists_eq_left]
    have e1 : x.pair.indices = consecutive ⟨.g, false⟩ (0 + k) k ++ consecutive ⟨.g, false⟩ 0 k := by
      show x.upper.list ++ x.lower.list = _
      rw [h5, h6]
    rw [e1, hidx, List.mem_append, List.mem_append]
    tauto
  obtain ⟨-, -, -, hre⟩ := Term.make_ok.1 e
  have hrt : r.tensors = [x.relabel (dictFun ρ)] := by rw [hre]; simp only [h2]; rfl
  have hro : r.sqOp = t.sqOp.relabel (dictFun ρ) := by rw [hre]
  have hrc : r.coeff = t.coeff := by rw [hre]
  have hAB : ∀ i, i ∈ consecutive ⟨.g, false⟩ (0 + k) k ++ consecutive ⟨.g, false⟩ 0 k ↔ i ∈ t.sqOp.indices := by
    intro i; rw [hidx, List.mem_append, List.mem_append]; tauto
  have hABn : (consecutive ⟨.g, false⟩ (0 + k) k ++ consecutive ⟨.g, false⟩ 0 k).Nodup := by
    rw [hidx] at hndop; exact List.perm_append_comm.nodup hndop
  have hru : r.sqOp.upper = (x.relabel (dictFun ρ)).lower := by
    rw [hro]; simp only [Tensor.relabel, IndicesPair.relabel, Tensor.lower, Tensor.upper] at h5 h6 h7 h8 ⊢; rw [h7, h6, h5]
  have hrl : r.sqOp.lower = (x.relabel (dictFun ρ)).upper := by
    rw [hro]; simp only [Tensor.relabel, IndicesPair.relabel, Tensor.lower, Tensor.upper] at h5 h6 h7 h8 ⊢; rw [h7, h8, h6, h5]
  obtain ⟨g', hS, hc'⟩ := oneTensor_good (t := r)
    (x := x.relabel (dictFun ρ)) (A := (consecutive ⟨.g, false⟩ (0 + k) k).map (dictFun ρ)) (B := (consecutive ⟨.g, false⟩ 0 k).map (dictFun ρ))
    hrt (Or.inr (Or.inl ⟨h3, h4, hp⟩)) (by simp [Tensor.isDensity, Tensor.relabel, h3])
    (by show (⟨x.upper.ty, x.upper.list.map (dictFun ρ)⟩ : Indices) = _; rw [h5])
    (by simp only [Tensor.relabel, IndicesPair.relabel, Tensor.lower, Tensor.upper] at h5 h6 ⊢; rw [h5, h6])
    (Or.inl ⟨hru, hrl⟩)
    (by
      rw [← List.map_append]
      exact nodup_map_of (fun a ha b hb e => hinj a (hin a ((hAB a).1 ha)) b (hin b ((hAB b).1 hb)) e) hABn)
    (by
      rw [← List.map_append]
      intro i hi
      obtain ⟨j, hj, rfl⟩ := List.mem_map.1 hi
      show (dictFun ρ j).space.beta = false
      rcases hfsp j ((hAB j).1 hj) with e | e <;> rw [e])
    (by rw [List.length_map, List.length_map, length_consecutive, length_consecutive])
  have hmem : ∀ i ∈ labelsOf r.tensors r.sqOp, ∃ j ∈ t.sqOp.indices, i = dictFun ρ j := by
    intro i hi
    rw [hS, List.mem_toFinset, ← List.map_append] at hi
    obtain ⟨j, hj, rfl⟩ := List.mem_map.1 hi
    exact ⟨j, (hAB j).1 hj, rfl⟩
  refine ⟨g', ⟨?_, ?_⟩, hrc.trans hco, ?_, _, hrt, h3, ?_, hru, hrl⟩
  · rw [hc', List.length_map, List.length_map, length_consecutive, length_consecutive]; omega
  · intro i hi
    obtain ⟨j, hj, rfl⟩ := hmem i hi
    have := hlt j (hin j hj)
    rw [hcard] at this
    omega
  · intro i hi
    obtain ⟨j, hj, rfl⟩ := hmem i hi
    exact hfsp j hj
  · show (x.upper.list.map (dictFun ρ)).length = k
    rw [List.length_map, h5, length_consecutive]

/-! ### The levels of the expansion -/

/-- The amplitudes of a level. -/
theorem clusterOperators_good {levels : List Nat} {start : Nat} {unitary singleRef : Bool} {amps : List Term}
    (h : clusterOperators levels start unitary singleRef = .ok amps) :
    ∀ t ∈ amps, ∃ k ∈ levels, GoodTerm t ∧ (labelsOf t.tensors t.sqOp).card = 2 * k ∧
      (t.coeff = 1 / (k.factorial : ℚ) ^ 2 ∨ t.coeff = -1 / (k.factorial : ℚ) ^ 2) ∧
      t.sqOp.upper.list.length = k ∧ t.sqOp.lower.list.length = k ∧
      ∀ i ∈ labelsOf t.tensors t.sqOp, (i.space = holeSpace singleRef ∨ i.space = particleSpace singleRef) ∧ start ≤ i.number := by
  have key : ∀ {excitation : Bool} {scale : ℚ} {l : List Term}, (levels.mapM fun k =>
      clusterOperator k start excitation ['T'] scale (holeSpace singleRef) (particleSpace singleRef) .spinOrbital) = .ok l →
      (scale = 1 ∨ scale = -1) → ∀ t ∈ l, ∃ k ∈ levels, GoodTerm t ∧ (labelsOf t.tensors t.sqOp).card = 2 * k ∧
      (t.coeff = 1 / (k.factorial : ℚ) ^ 2 ∨ t.coeff = -1 / (k.factorial : ℚ) ^ 2) ∧
      t.sqOp.upper.list.length = k ∧ t.sqOp.lower.list.length = k ∧
      ∀ i ∈ labelsOf t.tensors t.sqOp, (i.space = holeSpace singleRef ∨ i.space = particleSpace singleRef) ∧ start ≤ i.number := by
    intro excitation scale l hl hs t ht
    obtain ⟨k, hk, e⟩ := forall₂_mem_right (forall₂_of_mapM hl) ht
    obtain ⟨g, hc, hco, hu, hlo, hlab⟩ := cluster_good e
    refine ⟨k, hk, g, hc, ?_, hu, hlo, fun i hi => ⟨(hlab i hi).1, (hlab i hi).2.1⟩⟩
    rcases hs with rfl | rfl
    · exact Or.inl hco
    · exact Or.inr hco
  unfold clusterOperators at h
  simp only [bind, Except.bind] at h
  split at h
  · cases h
  · rename_i a ha
    split at h
    · split at h
      · cases h
      · rename_i b hb
        injection h with h
        subst h
        intro t ht
        rcases List.mem_append.1 ht with ht | ht
        · exact key ha (Or.inl rfl) t ht
        · exact key hb (Or.inr rfl) t ht
    · injection h with h
      subst h
      exact key ha (Or.inl rfl)

theorem disjointLabels_of_numbers {a b : Term} {N : Nat} (ha : ∀ i ∈ labelsOf a.tensors a.sqOp, i.number < N)
    (hb : ∀ i ∈ labelsOf b.tensors b.sqOp, N ≤ i.number) : DisjointLabels a b := by
  unfold DisjointLabels
  rw [Finset.disjoint_left]
  intro i hi hj
  have := ha i hi
  have := hb i hj
  omega

/-- The pairs of one level. -/
theorem level_pairs {levels : List Nat} {unitary singleRef : Bool} {maxLevel N : Nat} (hmax : ∀ k ∈ levels, k ≤ maxLevel) {pool amps : List Term}
    (hp : GoodList N pool) (ha : clusterOperators levels N unitary singleRef = .ok amps) :
    ∀ p ∈ pool.flatMap fun l => amps.map fun r => (l, r), GoodTerm p.1 ∧ GoodTerm p.2 ∧ DisjointLabels p.1 p.2 ∧
      (labelsOf p.1.tensors p.1.sqOp).card + (labelsOf p.2.tensors p.2.sqOp).card ≤ N + maxLevel * 2 := by
  intro p hpm
  obtain ⟨l, hl, hpm⟩ := List.mem_flatMap.1 hpm
  obtain ⟨r, hr, rfl⟩ := List.mem_map.1 hpm
  obtain ⟨k, hk, g, hc, -, -, -, hlab⟩ := clusterOperators_good ha r hr
  refine ⟨(hp l hl).1, g, disjointLabels_of_numbers (hp l hl).2.number fun i hi => (hlab i hi).2, ?_⟩
  have := (hp l hl).2.card
  have := hmax k hk
  show (labelsOf l.tensors l.sqOp).card + (labelsOf r.tensors r.sqOp).card ≤ N + maxLevel * 2
  omega

/-- Every level of the expansion. -/
theorem BchLevels.good {m : Machine} (hcanon : CanonContract m.canon) (hord : m.ord.Lawful) {o : Options} {levels : List Nat}
    {unitary singleRef : Bool} {maxLevel : Nat} (hmax : ∀ k ∈ levels, k ≤ maxLevel) :
    ∀ {limits : List (Int × Int × Int)} {i : Nat} {pool : List Term} {calls : List (List (Term × Term))} {outs : List (List Term)},
      GoodList (i * (maxLevel * 2) + 4) pool → BchLevels m o levels unitary singleRef (maxLevel * 2) i pool limits calls outs →
      (∀ c ∈ calls, ∀ p ∈ c, GoodTerm p.1 ∧ GoodTerm p.2 ∧ DisjointLabels p.1 p.2) ∧ ∀ out ∈ outs, ∀ t ∈ out, GoodTerm t := by
  intro limits
  induction limits with
  | nil =>
    intro i pool calls outs _ h
    obtain ⟨rfl, rfl⟩ := h
    simp
  | cons x limits ih =>
    intro i pool calls outs hp h
    obtain ⟨amps, all, copies, out, pool', calls', outs', h1, h2, h3, h4, h5, h6, rfl, rfl⟩ := h
    have hpairs := level_pairs hmax hp h1
    have g1 := CommutatorsRun.good hcanon hord hpairs h2
    have g2 := (g1.copies h3).combine h4
    have g3 := g2.copies h5
    have e : i * (maxLevel * 2) + 4 + maxLevel * 2 = (i + 1) * (maxLevel * 2) + 4 := by ring
    rw [e] at g3
    obtain ⟨k1, k2⟩ := ih g3 h6
    refine ⟨?_, ?_⟩
    · intro c hc p hpm
      rcases List.mem_cons.1 hc with rfl | hc
      · obtain ⟨a, b, d, -⟩ := hpairs p hpm
        exact ⟨a, b, d⟩
      · exact k1 c hc p hpm
    · intro out' ho t ht
      rcases List.mem_cons.1 ho with rfl | ho
      · exact (g2 t ht).1
      · exact k2 out' ho t ht

/-- The first level: the expanded Hamiltonian. -/
theorem expandedHamiltonian_good {ord : SetOrder} (hord : ord.Lawful) {k : Nat} {out : List Term} (h : expandedHamiltonian ord k = .ok out) :
    ∀ r ∈ out, GoodTerm r ∧ SmallLabels (2 * k) r ∧
      ∀ i ∈ labelsOf r.tensors r.sqOp, i.space = ⟨.c, false⟩ ∨ i.space = ⟨.v, false⟩ := by
  unfold expandedHamiltonian at h
  simp only [bind, Except.bind] at h
  split at h
  · cases h
  · rename_i t ht
    split at h
    · cases h
    · rename_i rows hrows
      have hg := expand_good hord ht hrows
      have hreg := regular_of_good fun t ht => (hg t ht).1
      rw [combineTerms_eq hreg] at h
      injection h with h
      subst h
      intro x hx
      obtain ⟨t, ht, e⟩ := mem_combine_same hreg hx
      obtain ⟨h1, h2, -, h4, -⟩ := hg t ht
      refine ⟨h1.of_same e, h2.of_same e, ?_⟩
      intro i hi
      rw [e.1, e.2] at hi
      exact h4 i hi

theorem bchStart_good {ord : SetOrder} (hord : ord.Lawful) {start : List Term} (h : bchStart ord = .ok start) :
    GoodList 4 start ∧ ∀ r ∈ start, ∀ i ∈ labelsOf r.tensors r.sqOp, i.space = ⟨.c, false⟩ ∨ i.space = ⟨.v, false⟩ := by
  unfold bchStart at h
  simp only [bind, Except.bind] at h
  split at h
  · cases h
  · rename_i a ha
    split at h
    · cases h
    · rename_i b hb
      injection h with h
      subst h
      have ga := expandedHamiltonian_good hord ha
      have gb := expandedHamiltonian_good hord hb
      refine ⟨GoodList.append (fun t ht => ⟨(ga t ht).1, (ga t ht).2.1.mono (by omega)⟩) fun t ht => ⟨(gb t ht).1, (gb t ht).2.1.mono (by omega)⟩, ?_⟩
      intro r hr
      rcases List.mem_append.1 hr with hr | hr
      · exact (ga r hr).2.2
      · exact (gb r hr).2.2

theorem hamiltonian_made {k : Nat} {t : Term} (h : hamiltonianOperator k 0 .spinOrbital = .ok t) : ∃ ts op c, Term.make ts op c = .ok t := by
  unfold hamiltonianOperator at h
  simp only [bind, Except.bind] at h
  repeat' split at h
  all_goals first | cases h | exact ⟨_, _, _, h⟩

/-- The Hamiltonian can be expanded. -/
theorem expandedHamiltonian_total {ord : SetOrder} (hord : ord.Lawful) (k : Nat) : ∃ out, expandedHamiltonian ord k = .ok out := by
  obtain ⟨t, x, h1, h2, h3, h4, h5, h6, h7, h8, -⟩ := C38_hamiltonian k 0 .spinOrbital
  obtain ⟨g, -⟩ := hamiltonian_good h1
  obtain ⟨ts, op, c, ht⟩ := hamiltonian_made h1
  have hop : t.sqOp = op := by obtain ⟨-, -, -, rfl⟩ := Term.make_ok.1 ht; rfl
  have hp : t.tensors.Perm ts := by obtain ⟨-, -, -, rfl⟩ := Term.make_ok.1 ht; exact sortTensors_perm ts
  have hcon : ∀ lo, Indices.Constructed ⟨.spinOrbital, consecutive ⟨.g, false⟩ lo k⟩ := by
    intro lo
    exact (Indices.wf_iff_make _).1 ⟨nodup_consecutive _ _ _, fun _ i hi => by rw [mem_consecutive] at hi; rw [Index.isBeta, hi.1]⟩
  have hupper : x.upper.Constructed := by rw [h5]; exact hcon _
  have hlower : x.lower.Constructed := by rw [h6]; exact hcon _
  obtain ⟨rows, hr⟩ := C44_total_partial ord hord ts op c t ht (by rw [← hop]; exact g.tidy.op) (by
      rw [← hop]
      refine ⟨by rw [h7]; exact hlower, by rw [h8]; exact hupper, ?_⟩
      unfold IndicesPair.make
      rw [if_neg (by rw [h7, h8, h5, h6]; simp)]) (by
      intro e; rw [e, h2] at hp; simpa using hp.length_eq) (by
      intro y hy
      have : y = x := by simpa [h2] using hp.mem_iff.2 hy
      rw [this]
      refine ⟨hupper, hlower, ?_⟩
      unfold Tensor.make
      simp only [bind, Except.bind, IndicesPair.make, h5, h6, h3, ne_eq, not_true_eq_false, if_false]
      rw [requireSpin_consecutive .spinOrbital _ _ _ _ _ (Or.inr rfl)]
      simp only [pure, Except.pure, ← h5, ← h6, ← h3]) (by
      intro y hy e
      have : y = x := by simpa [h2] using hp.mem_iff.2 hy
      rw [this, h3] at e
      exact absurd e (by decide)) t.sqOp.size t.sqOp.size true 0
  have hr' : t.expandCompositeIndices ord true 0 = .ok rows := hr
  have hreg := regular_of_good fun r hr => (expand_good hord h1 hr' r hr).1
  unfold expandedHamiltonian
  rw [h1]
  simp only [bind, Except.bind, hr']
  exact ⟨_, combineTerms_eq hreg⟩

theorem bchStart_total {ord : SetOrder} (hord : ord.Lawful) : ∃ start, bchStart ord = .ok start := by
  obtain ⟨a, ha⟩ := expandedHamiltonian_total hord 1
  obtain ⟨b, hb⟩ := expandedHamiltonian_total hord 2
  refine ⟨a ++ b, ?_⟩
  unfold bchStart
  rw [ha, hb]
  rfl

/-! ### The products of `nested_commutator_cc` -/

theorem nestedFactors_good {singleRef : Bool} : ∀ {names : List OpName} {start : Nat} {terms : List Term},
    names.countP OpName.isH ≤ 1 → nestedFactors singleRef start names = .ok terms →
    (∀ t ∈ terms, GoodTerm t) ∧ terms.Pairwise DisjointLabels ∧
    (∀ t ∈ terms, ∀ i ∈ labelsOf t.tensors t.sqOp, i.space = ⟨.g, false⟩ ∨
      ((i.space = holeSpace singleRef ∨ i.space = particleSpace singleRef) ∧ start ≤ i.number)) ∧
    (names.countP OpName.isH = 0 → ∀ t ∈ terms, ∀ i ∈ labelsOf t.tensors t.sqOp,
      (i.space = holeSpace singleRef ∨ i.space = particleSpace singleRef)) ∧
    terms.map (fun t => t.sqOp.upper.list.length) = names.map OpName.bodies ∧ terms.map (fun t => t.sqOp.lower.list.length) = names.map OpName.bodies ∧
    terms.map Term.coeff = names.map (fun x => 1 / (x.bodies.factorial : ℚ) ^ 2) := by
  have hg1 : holeSpace singleRef ≠ ⟨.g, false⟩ := by cases singleRef <;> decide
  have hg2 : particleSpace singleRef ≠ ⟨.g, false⟩ := by cases singleRef <;> decide
  intro names
  induction names with
  | nil =>
    intro start terms _ h
    injection h with h
    subst h
    simp
  | cons x names ih =>
    have amp : ∀ {k start : Nat} {excitation : Bool} {t : Term} {ts terms : List Term}, x.isH = false → x.bodies = k →
        (x :: names).countP OpName.isH ≤ 1 →
        clusterOperator k start excitation ['T'] 1 (holeSpace singleRef) (particleSpace singleRef) .spinOrbital = .ok t →
        nestedFactors singleRef (start + k) names = .ok ts → terms = t :: ts →
        (∀ t ∈ terms, GoodTerm t) ∧ terms.Pairwise DisjointLabels ∧
          (∀ t ∈ terms, ∀ i ∈ labelsOf t.tensors t.sqOp, i.space = ⟨.g, false⟩ ∨
            ((i.space = holeSpace singleRef ∨ i.space = particleSpace singleRef) ∧ start ≤ i.number)) ∧
          ((x :: names).countP OpName.isH = 0 → ∀ t ∈ terms, ∀ i ∈ labelsOf t.tensors t.sqOp,
            (i.space = holeSpace singleRef ∨ i.space = particleSpace singleRef)) ∧
          terms.map (fun t => t.sqOp.upper.list.length) = (x :: names).map OpName.bodies ∧
          terms.map (fun t => t.sqOp.lower.list.length) = (x :: names).map OpName.bodies ∧
          terms.map Term.coeff = (x :: names).map (fun x => 1 / (x.bodies.factorial : ℚ) ^ 2) := by
      intro k start excitation t ts terms hx hk hcount e1 e2 e3
      rw [List.countP_cons, hx] at hcount
      obtain ⟨i1, i2, i3, i4, i5, i6, i7⟩ := ih (by simpa using hcount) e2
      obtain ⟨g, -, hco, hu, hl, hlab⟩ := cluster_good e1
      subst e3
      refine ⟨?_, ?_, ?_, ?_, ?_, ?_, ?_⟩
      · intro u hu
        rcases List.mem_cons.1 hu with rfl | hu
        · exact g
        · exact i1 u hu
      · rw [List.pairwise_cons]
        refine ⟨?_, i2⟩
        intro u hu
        unfold DisjointLabels
        rw [Finset.disjoint_left]
        intro i hi hj
        obtain ⟨s, l1, l2⟩ := hlab i hi
        rcases i3 u hu i hj with e | ⟨-, e⟩
        · rcases s with s | s
          · exact hg1 (s.symm.trans e)
          · exact hg2 (s.symm.trans e)
        · omega
      · intro u hu i hi
        rcases List.mem_cons.1 hu with rfl | hu
        · obtain ⟨s, l1, l2⟩ := hlab i hi
          exact Or.inr ⟨s, l1⟩
        · rcases i3 u hu i hi with e | ⟨s, e⟩
          · exact Or.inl e
          · exact Or.inr ⟨s, by omega⟩
      · intro h0 u hu
        rw [List.countP_cons, hx] at h0
        rcases List.mem_cons.1 hu with rfl | hu
        · exact fun i hi => (hlab i hi).1
        · exact i4 (by simpa using h0) u hu
      · rw [List.map_cons, List.map_cons, i5, hu, hk]
      · rw [List.map_cons, List.map_cons, i6, hl, hk]
      · rw [List.map_cons, List.map_cons, i7, hco, hk]
    intro start terms hcount h
    cases x with
    | T k =>
      simp only [nestedFactors, bind, Except.bind] at h
      split at h
      · cases h
      · rename_i t ht
        split at h
        · cases h
        · rename_i ts hts
          injection h with h
          exact amp rfl rfl hcount ht hts h.symm
    | X k =>
      simp only [nestedFactors, bind, Except.bind] at h
      split at h
      · cases h
      · rename_i t ht
        split at h
        · cases h
        · rename_i ts hts
          injection h with h
          exact amp rfl rfl hcount ht hts h.symm
    | H k =>
      simp only [nestedFactors, bind, Except.bind] at h
      split at h
      · cases h
      · rename_i t ht
        split at h
        · cases h
        · rename_i ts hts
          injection h with h
          subst h
          have h0 : names.countP OpName.isH = 0 := by
            rw [List.countP_cons] at hcount
            simp only [OpName.isH, if_true] at hcount
            omega
          obtain ⟨i1, i2, i3, i4, i5, i6, i7⟩ := ih (by omega) hts
          obtain ⟨g, -, hco, hu, hl, hlab⟩ := hamiltonian_good ht
          refine ⟨?_, ?_, ?_, ?_, ?_, ?_, ?_⟩
          · intro u hu
            rcases List.mem_cons.1 hu with rfl | hu
            · exact g
            · exact i1 u hu
          · rw [List.pairwise_cons]
            refine ⟨?_, i2⟩
            intro u hu
            unfold DisjointLabels
            rw [Finset.disjoint_left]
            intro i hi hj
            rcases i4 h0 u hu i hj with s | s
            · exact hg1 (s.symm.trans (hlab i hi).1)
            · exact hg2 (s.symm.trans (hlab i hi).1)
          · intro u hu i hi
            rcases List.mem_cons.1 hu with rfl | hu
            · exact Or.inl (hlab i hi).1
            · exact i3 u hu i hi
          · intro hc
            rw [List.countP_cons] at hc
            simp [OpName.isH] at hc
          · rw [List.map_cons, List.map_cons, i5, hu]; rfl
          · rw [List.map_cons, List.map_cons, i6, hl]; rfl
          · rw [List.map_cons, List.map_cons, i7, hco]; rfl

theorem nestedLoop_calls {m : Machine} {o : Options} {singleRef : Bool} {scale : ℚ} : ∀ {e : List (ℤ × List OpName)} {calls : List (List Term × ℚ)}
    {out : List Term}, NestedLoop m o singleRef scale e calls out →
    List.Forall₂ (fun p call => nestedFactors singleRef 0 p.2 = .ok call.1 ∧ call.2 = scale * p.1) e calls ∧
    ∃ outs, List.Forall₂ (fun call out => ContractRun m o call.1 call.2 out) calls outs ∧ out = outs.flatten := by
  intro e
  induction e with
  | nil =>
    intro calls out h
    obtain ⟨rfl, rfl⟩ := h
    exact ⟨List.Forall₂.nil, [], List.Forall₂.nil, rfl⟩
  | cons p e ih =>
    intro calls out h
    obtain ⟨terms, o₁, calls', o₂, h1, h2, h3, rfl, rfl⟩ := h
    obtain ⟨a, outs, b, rfl⟩ := ih h3
    exact ⟨List.Forall₂.cons ⟨h1, rfl⟩ a, o₁ :: outs, List.Forall₂.cons h2 b, rfl⟩

end Dsrg
