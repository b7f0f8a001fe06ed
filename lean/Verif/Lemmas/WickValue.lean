import Verif.Lemmas.WickProduct
import Verif.Lemmas.ContractValue
import Verif.Spec.NestedValue

/-!
Products of the values of terms without common labels, and the contractions of such products.
-/

namespace Dsrg

section
variable {O R A : Type} [Fintype O] [DecidableEq O] [Inhabited O] [CommRing R] [Algebra ℚ R] [Ring A] [Algebra R A]

omit [CommRing R] [Algebra ℚ R] [Algebra R A] in
/-- The product of two sums over labels without common labels. -/
theorem sum_assignments_mul (orb : Orbitals O) {S T : Finset Index} (hd : Disjoint S T) {f g : (Index → O) → A}
    (hf : ∀ σ τ : Index → O, (∀ i ∈ S, σ i = τ i) → f σ = f τ) (hg : ∀ σ τ : Index → O, (∀ i ∈ T, σ i = τ i) → g σ = g τ) :
    (∑ σ ∈ orb.assignments S, f (extendTo σ)) * (∑ τ ∈ orb.assignments T, g (extendTo τ)) =
      ∑ ρ ∈ orb.assignments (S ∪ T), f (extendTo ρ) * g (extendTo ρ) := by
  rw [Finset.sum_mul_sum, ← Finset.sum_product']
  refine Finset.sum_nbij' (fun p i => if h : i.1 ∈ S then p.1 ⟨i.1, h⟩ else extendTo p.2 i.1)
    (fun ρ => (fun i => ρ ⟨i.1, Finset.mem_union_left _ i.2⟩, fun i => ρ ⟨i.1, Finset.mem_union_right _ i.2⟩)) ?_ ?_ ?_ ?_ ?_
  · rintro ⟨σ, τ⟩ hp
    obtain ⟨h1, h2⟩ := Finset.mem_product.1 hp
    refine Fintype.mem_piFinset.2 fun i => ?_
    by_cases h : i.1 ∈ S
    · simp only [dif_pos h]; exact Fintype.mem_piFinset.1 h1 ⟨i.1, h⟩
    · have ht : i.1 ∈ T := (Finset.mem_union.1 i.2).resolve_left h
      simp only [dif_neg h, extendTo_mem τ ht]; exact Fintype.mem_piFinset.1 h2 ⟨i.1, ht⟩
  · intro ρ hρ
    exact Finset.mem_product.2 ⟨Fintype.mem_piFinset.2 fun i => Fintype.mem_piFinset.1 hρ ⟨i.1, _⟩,
      Fintype.mem_piFinset.2 fun i => Fintype.mem_piFinset.1 hρ ⟨i.1, _⟩⟩
  · rintro ⟨σ, τ⟩ -
    refine Prod.ext (funext fun i => ?_) (funext fun i => ?_)
    · simp only [dif_pos i.2]
    · simp only [dif_neg (Finset.disjoint_right.1 hd i.2), extendTo_mem τ i.2]
  · intro ρ _
    funext i
    by_cases h : i.1 ∈ S
    · simp only [dif_pos h]
    · have ht : i.1 ∈ T := (Finset.mem_union.1 i.2).resolve_left h
      simp only [dif_neg h, extendTo_mem _ ht]
  · rintro ⟨σ, τ⟩ -
    refine congrArg₂ (· * ·) (hf _ _ fun i hi => ?_) (hg _ _ fun i hi => ?_)
    · rw [extendTo_mem _ hi, extendTo_mem _ (Finset.mem_union_left _ hi), dif_pos hi]
    · rw [extendTo_mem _ hi, extendTo_mem _ (Finset.mem_union_right _ hi), dif_neg (Finset.disjoint_right.1 hd hi), extendTo_mem _ hi]

omit [Fintype O] [DecidableEq O] [Inhabited O] [CommRing R] [Algebra ℚ R] [Ring A] [Algebra R A] in
theorem mem_allLabels {terms : List Term} {i : Index} : i ∈ allLabels terms ↔ ∃ t ∈ terms, i ∈ labelsOf t.tensors t.sqOp := by
  unfold allLabels operatorLabels allTensors labelsOf
  simp only [List.mem_toFinset, List.mem_append, List.mem_flatMap]
  constructor
  · rintro (⟨x, ⟨t, ht, hx⟩, hi⟩ | ⟨t, ht, hi⟩)
    · exact ⟨t, ht, Or.inr ⟨x, hx, hi⟩⟩
    · exact ⟨t, ht, Or.inl hi⟩
  · rintro ⟨t, ht, hi | ⟨x, hx, hi⟩⟩
    · exact Or.inr ⟨t, ht, hi⟩
    · exact Or.inl ⟨x, ⟨t, ht, hx⟩, hi⟩

omit [Fintype O] [DecidableEq O] [Inhabited O] [CommRing R] [Algebra ℚ R] [Ring A] [Algebra R A] in
theorem allLabels_cons (t : Term) (terms : List Term) : allLabels (t :: terms) = labelsOf t.tensors t.sqOp ∪ allLabels terms := by
  ext i
  rw [Finset.mem_union, mem_allLabels, mem_allLabels]
  simp

/-- The product of the values of terms without common labels. -/
theorem prod_value (I : Interp O R A) (orb : Orbitals O) : ∀ {terms : List Term}, terms.Pairwise DisjointLabels →
    (terms.map fun t => I.value orb t.coeff t.tensors t.sqOp).prod = (algebraMap ℚ R (terms.map Term.coeff).prod) •
      ∑ σ ∈ orb.assignments (allLabels terms), I.pval (extendTo σ) (allTensors terms) • (terms.map fun t => I.opval (extendTo σ) t.sqOp).prod := by
  intro terms
  induction terms with
  | nil =>
    intro _
    have : (orb.assignments (allLabels [])).card = 1 := by
      unfold Orbitals.assignments
      rw [Fintype.card_piFinset]
      exact Finset.prod_eq_one fun i _ => absurd i.2 (by simp [allLabels, allTensors, operatorLabels])
    simp [allTensors, Interp.pval, this]
  | cons t terms ih =>
    intro h
    rw [List.pairwise_cons] at h
    rw [List.map_cons, List.prod_cons, ih h.2, List.map_cons, List.prod_cons, Interp.value, map_mul, smul_mul_smul_comm,
      allLabels_cons, sum_assignments_mul (f := fun σ => I.pval σ t.tensors • I.opval σ t.sqOp)
        (g := fun σ => I.pval σ (allTensors terms) • (terms.map fun t => I.opval σ t.sqOp).prod)]
    · congr 1
      refine Finset.sum_congr rfl fun σ _ => ?_
      rw [List.map_cons, List.prod_cons, smul_mul_smul_comm]
      congr 1
      rw [← Interp.pval_append]
      rfl
    · rw [Finset.disjoint_left]
      intro i hi hj
      obtain ⟨t', ht', hi'⟩ := mem_allLabels.1 hj
      exact Finset.disjoint_left.1 (h.1 t' ht') hi hi'
    · intro σ τ hst
      have key : ∀ i ∈ labelsOf t.tensors t.sqOp, σ i = τ i := hst
      congr 1
      · refine I.pval_congr fun x hx i hi => key i ?_
        exact List.mem_toFinset.2 (List.mem_append_right _ (List.mem_flatMap.2 ⟨x, hx, hi⟩))
      · exact I.opval_congr fun i hi => key i (List.mem_toFinset.2 (List.mem_append_left _ hi))
    · intro σ τ hst
      have key : ∀ t ∈ terms, ∀ i ∈ labelsOf t.tensors t.sqOp, σ i = τ i := fun t ht i hi => hst i (mem_allLabels.2 ⟨t, ht, hi⟩)
      congr 1
      · refine I.pval_congr fun x hx i hi => ?_
        obtain ⟨t, ht, hxt⟩ := List.mem_flatMap.1 hx
        exact key t ht i (List.mem_toFinset.2 (List.mem_append_right _ (List.mem_flatMap.2 ⟨x, hxt, hi⟩)))
      · congr 1
        refine List.map_congr_left fun t ht => ?_
        exact I.opval_congr fun i hi => key t ht i (List.mem_toFinset.2 (List.mem_append_left _ hi))

omit [Algebra ℚ R] [Fintype O] [Inhabited O] in
theorem opval_empty {I : Interp O R A} {field : Bool × O → A} (hno : I.NormalOrdered field) (σ : Index → O) {op : SqOp}
    (hu : op.upper.list = []) (hl : op.lower.list = []) : I.opval σ op = 1 := by
  unfold Interp.opval
  rw [hu, hl, hno]
  simp [normalOrder, normalOrderUpTo]

omit [Algebra ℚ R] [Fintype O] [Inhabited O] in
theorem prod_properOps {I : Interp O R A} {field : Bool × O → A} (hno : I.NormalOrdered field) (σ : Index → O) (terms : List Term) :
    ((properOps terms).map (I.opval σ)).prod = (terms.map fun t => I.opval σ t.sqOp).prod := by
  unfold properOps
  induction terms with
  | nil => rfl
  | cons t terms ih =>
    rw [List.map_cons, List.filter_cons, List.map_cons, List.prod_cons, ← ih]
    by_cases h : t.sqOp.upper.list ≠ [] ∨ t.sqOp.lower.list ≠ []
    · rw [if_pos (by simpa using h), List.map_cons, List.prod_cons]
    · push Not at h
      rw [if_neg (by simp [h.1, h.2]), opval_empty hno σ h.1 h.2, one_mul]

omit [Fintype O] [DecidableEq O] [Inhabited O] [CommRing R] [Algebra ℚ R] [Ring A] [Algebra R A] in
theorem mem_operatorLabels_word {terms : List Term} (i : Index) :
    i ∈ operatorLabels terms ↔ ∃ x ∈ productWord (properOps terms), x.2 = i := by
  unfold operatorLabels productWord properOps stringWord
  simp only [List.mem_flatMap, List.mem_filter, List.mem_map, List.mem_append, decide_eq_true_eq]
  constructor
  · rintro ⟨t, ht, hi | hi⟩
    · exact ⟨(true, i), ⟨t.sqOp, ⟨⟨t, ht, rfl⟩, Or.inl (List.ne_nil_of_mem hi)⟩, Or.inl ⟨i, hi, rfl⟩⟩, rfl⟩
    · exact ⟨(false, i), ⟨t.sqOp, ⟨⟨t, ht, rfl⟩, Or.inr (List.ne_nil_of_mem hi)⟩, Or.inr ⟨i, by simpa using hi, rfl⟩⟩, rfl⟩
  · rintro ⟨x, ⟨op, ⟨⟨t, ht, rfl⟩, -⟩, ⟨j, hj, rfl⟩ | ⟨j, hj, rfl⟩⟩, rfl⟩
    · exact ⟨t, ht, Or.inl hj⟩
    · exact ⟨t, ht, Or.inr (by simpa using hj)⟩

omit [Fintype O] [DecidableEq O] [Inhabited O] [CommRing R] [Algebra ℚ R] [Ring A] [Algebra R A] in
/-- A contraction of a product has the labels of the product. -/
theorem IsResult.labels {terms : List Term} {c : List Tensor} {s : Int} {r : SqOp} (h : IsResult (properOps terms) c s r) :
    labelsOf (allTensors terms ++ c) r = allLabels terms := by
  have hw := h.word
  have hcw : ∀ (t : Tensor) (i : Index), i ∈ t.upper.list ++ t.lower.list ↔ ∃ x ∈ contractionWord t, x.2 = i := by
    intro t i
    unfold contractionWord
    split
    · simp only [List.mem_append, List.mem_map]
      constructor
      · rintro (hi | hi)
        · exact ⟨(true, i), Or.inr ⟨i, hi, rfl⟩, rfl⟩
        · exact ⟨(false, i), Or.inl ⟨i, hi, rfl⟩, rfl⟩
      · rintro ⟨x, ⟨j, hj, rfl⟩ | ⟨j, hj, rfl⟩, rfl⟩
        · exact Or.inr hj
        · exact Or.inl hj
    · simp only [List.mem_append, List.mem_map, List.mem_reverse]
      constructor
      · rintro (hi | hi)
        · exact ⟨(true, i), Or.inl ⟨i, hi, rfl⟩, rfl⟩
        · exact ⟨(false, i), Or.inr ⟨i, hi, rfl⟩, rfl⟩
      · rintro ⟨x, ⟨j, hj, rfl⟩ | ⟨j, hj, rfl⟩, rfl⟩
        · exact Or.inl hj
        · exact Or.inr hj
  have hsw : ∀ i : Index, i ∈ r.upper.list ++ r.lower.list ↔ ∃ x ∈ stringWord r, x.2 = i := by
    intro i; unfold stringWord; simp [or_comm]
  ext i
  have hiff : i ∈ operatorLabels terms ↔
      i ∈ c.flatMap (fun t => t.upper.list ++ t.lower.list) ∨ i ∈ r.upper.list ++ r.lower.list := by
    rw [mem_operatorLabels_word, hsw]
    simp only [← hw.mem_iff, List.mem_append, List.mem_flatMap (b := i), hcw]
    constructor
    · rintro ⟨x, hx | hx, rfl⟩
      · obtain ⟨t, ht, hxt⟩ := List.mem_flatMap.1 hx
        exact Or.inl ⟨t, ht, x, hxt, rfl⟩
      · exact Or.inr ⟨x, hx, rfl⟩
    · rintro (⟨t, ht, x, hx, rfl⟩ | ⟨x, hx, rfl⟩)
      · exact ⟨x, Or.inl (List.mem_flatMap.2 ⟨t, ht, hx⟩), rfl⟩
      · exact ⟨x, Or.inr hx, rfl⟩
  unfold labelsOf allLabels
  rw [List.mem_toFinset, List.mem_toFinset, List.mem_append, List.flatMap_append, List.mem_append (t := c.flatMap _)]
  rw [List.mem_append (t := operatorLabels terms), hiff]
  tauto

/-- All contractions of a product of terms without common labels, when nothing is cut off: the product of the values. -/
theorem IsContraction.eq_prod {terms : List Term} (hG : GoodOps (properOps terms)) (hd : terms.Pairwise DisjointLabels)
    {field : Bool × O → A} (hf : Fermions field) {I : Interp O R A} (hno : I.NormalOrdered field) (hI : I.Antisymmetric) {orb : Orbitals O}
    (hph : I.Physical orb) (hac : I.ActiveCumulants orb) {scale : ℚ} {maxCu maxOpen minOpen : Int} (hcu : I.CumulantsUpTo maxCu)
    (hmin : minOpen ≤ 0) (hmax : (nOperators (properOps terms) : Int) ≤ maxOpen) {V : A}
    (hV : IsContraction I orb (scale * (terms.map Term.coeff).prod) (allTensors terms) (properOps terms) maxCu maxOpen minOpen V) :
    V = (algebraMap ℚ R scale) • (terms.map fun t => I.value orb t.coeff t.tensors t.sqOp).prod := by
  obtain ⟨cs, sign, rest, h1, h2, h3, rfl⟩ := hV
  have hl : ∀ c ∈ cs, labelsOf (allTensors terms ++ c) (rest c) = allLabels terms := fun c hc => (h3 c hc).labels
  have e : ∀ cs' : List (List Tensor), (∀ c ∈ cs', labelsOf (allTensors terms ++ c) (rest c) = allLabels terms) →
      (cs'.map fun c => I.value orb (sign c * (scale * (terms.map Term.coeff).prod)) (allTensors terms ++ c) (rest c)).sum =
      (algebraMap ℚ R (scale * (terms.map Term.coeff).prod)) • ∑ σ ∈ orb.assignments (allLabels terms), I.pval (extendTo σ) (allTensors terms) •
        (cs'.map fun c => (sign c : R) • I.pval (extendTo σ) c • I.opval (extendTo σ) (rest c)).sum := by
    intro cs' h
    have := sum_rows_value I orb (scale * (terms.map Term.coeff).prod) (allTensors terms) (allLabels terms)
      (cs'.map fun c => (sign c, c, rest c)) (by simpa using h)
    simpa [Interp.rowsValue, Function.comp_def] using this
  rw [e cs hl, prod_value I orb hd, map_mul, mul_smul]
  congr 2
  refine Finset.sum_congr rfl fun σ hσ => ?_
  rw [← prod_properOps hno, wick_pointwise hG hf hno hI hph hac hcu hmin hmax ?_ h1 h2 h3]
  intro x hx
  refine extendTo_in orb hσ _ ?_
  unfold allLabels
  exact List.mem_toFinset.2 (List.mem_append_right _ ((mem_operatorLabels_word _).2 ⟨x, hx, rfl⟩))

omit [Fintype O] [DecidableEq O] [Inhabited O] [CommRing R] [Algebra ℚ R] [Ring A] [Algebra R A] in
theorem properOps_pair {a b : Term} (ha : a.sqOp.upper.list ≠ [] ∨ a.sqOp.lower.list ≠ []) (hb : b.sqOp.upper.list ≠ [] ∨ b.sqOp.lower.list ≠ []) :
    properOps [a, b] = [a.sqOp, b.sqOp] := by
  unfold properOps
  simp only [List.map_cons, List.map_nil, List.filter_cons, decide_eq_true ha, decide_eq_true hb, if_true, List.filter_nil]

omit [Fintype O] [DecidableEq O] [Inhabited O] [CommRing R] [Algebra ℚ R] [Ring A] [Algebra R A] in
theorem Allowed.widen {ops : List SqOp} (hG : GoodOps ops) {maxCu maxOpen minOpen : Int} (hmin : minOpen ≤ 0)
    (hmax : (nOperators ops : Int) ≤ maxOpen + 2) (hlt : maxOpen < nOperators ops) (ts : List Tensor) :
    Allowed ops maxCu (nOperators ops) minOpen ts ↔ ts = [] ∨ Allowed ops maxCu maxOpen minOpen ts := by
  constructor
  · intro h
    rcases ts with _ | ⟨t, ts⟩
    · exact Or.inl rfl
    · right
      refine ⟨h.nodup, h.elementary, h.share, h.window.1, ?_⟩
      have h1 : 0 < t.upper.list.length := List.length_pos_of_ne_nil (proper_of_elementary hG (h.elementary t (by simp))).ne
      have h2 : t.upper.size = t.upper.list.length := rfl
      have h3 : ((t :: ts).map fun t => t.upper.size).sum = t.upper.size + (ts.map fun t => t.upper.size).sum := by
        rw [List.map_cons, List.sum_cons]
      rw [h3]
      have h4 := h.window.2
      omega
  · rintro (rfl | h)
    · exact ⟨List.nodup_nil, by simp, List.Pairwise.nil, by simp; omega, by simp⟩
    · exact ⟨h.nodup, h.elementary, h.share, h.window.1, by have := h.window.2; omega⟩

omit [Fintype O] [DecidableEq O] [Inhabited O] [CommRing R] [Algebra ℚ R] [Ring A] [Algebra R A] in
/-- Two strings of which one has an even number of operators can be exchanged. -/
theorem IsResult.exchange {x y : SqOp} (hG : GoodOps [x, y]) (he : Even (stringWord x).length ∨ Even (stringWord y).length) {s : Int} {op : SqOp} (h : IsResult [x, y] [] s op) :
    IsResult [y, x] [] s op := by
  have hp : (productWord [x, y]).Perm (productWord [y, x]) := by
    simpa [productWord] using List.perm_append_comm
  refine ⟨h.word.trans hp, h.upperTy, h.lowerTy, h.upperSorted, h.lowerSorted, h.unit, ?_⟩
  intro M _ F hF
  rw [← h.sign M F hF]
  have hn := hG.nodup_word
  have := hF.swap_blocks (stringWord x) (stringWord y) [] [] (by simpa [productWord] using hn)
  have hev : signPow ((stringWord x).length * (stringWord y).length) = 1 := by
    rcases he with ⟨k, hk⟩ | ⟨k, hk⟩
    · rw [hk, ← two_mul, mul_assoc]
      simp [signPow, pow_mul]
    · rw [hk, ← two_mul, mul_left_comm]
      simp [signPow, pow_mul]
  rw [hev, one_smul] at this
  simpa [productWord] using this

omit [DecidableEq O] in
/-- The uncontracted product does not count in a commutator. -/
theorem IsContraction.widen {a b : Term} (hG : GoodOps [a.sqOp, b.sqOp]) (he : Even (stringWord a.sqOp).length ∨ Even (stringWord b.sqOp).length)
    {I : Interp O R A} {orb : Orbitals O} {c : ℚ} {maxCu maxOpen minOpen : Int} (hmin : minOpen ≤ 0)
    (hmax : (nOperators [a.sqOp, b.sqOp] : Int) ≤ maxOpen + 2) {V W : A}
    (hV : IsContraction I orb c (a.tensors ++ b.tensors) [a.sqOp, b.sqOp] maxCu maxOpen minOpen V)
    (hW : IsContraction I orb c (b.tensors ++ a.tensors) [b.sqOp, a.sqOp] maxCu maxOpen minOpen W) :
    ∃ (V' W' : A) (max : Int), (nOperators [a.sqOp, b.sqOp] : Int) ≤ max ∧
      IsContraction I orb c (a.tensors ++ b.tensors) [a.sqOp, b.sqOp] maxCu max minOpen V' ∧
      IsContraction I orb c (b.tensors ++ a.tensors) [b.sqOp, a.sqOp] maxCu max minOpen W' ∧ V - W = V' - W' := by
  classical
  by_cases hlt : maxOpen < nOperators [a.sqOp, b.sqOp]
  · have hsymm : nOperators [b.sqOp, a.sqOp] = nOperators [a.sqOp, b.sqOp] := by simp [nOperators, add_comm]
    have hG' : GoodOps [b.sqOp, a.sqOp] := hG.symm
    have hr := isResult_of_proper hG (ts := []) ⟨by simp, List.Pairwise.nil⟩
    obtain ⟨s, op, hr⟩ : ∃ s op, IsResult [a.sqOp, b.sqOp] [] s op := ⟨_, _, hr⟩
    have hr' := hr.exchange hG he
    have key : ∀ {ops : List SqOp} {ts : List Tensor} {U : A}, GoodOps ops → nOperators ops = nOperators [a.sqOp, b.sqOp] → IsResult ops [] s op →
        IsContraction I orb c ts ops maxCu maxOpen minOpen U →
        IsContraction I orb c ts ops maxCu (nOperators [a.sqOp, b.sqOp]) minOpen (I.value orb (s * c) ts op + U) := by
      rintro ops ts U hG hn hr ⟨cs, sign, rest, h1, h2, h3, rfl⟩
      have hnil : [] ∉ cs := fun h => by
        have := ((h2 []).1 ⟨[], h, List.Perm.refl _⟩).window.2
        simp at this
        omega
      have hwid := Allowed.widen hG (maxCu := maxCu) hmin (by rw [hn]; exact hmax) (by rw [hn]; exact hlt)
      rw [hn] at hwid
      refine ⟨[] :: cs, fun c => if c = [] then s else sign c, fun c => if c = [] then op else rest c, ?_, ?_, ?_, ?_⟩
      · refine List.pairwise_cons.2 ⟨fun c hc hp => hnil ?_, h1⟩
        rw [List.nil_perm] at hp
        exact hp ▸ hc
      · intro ts
        rw [hwid, ← h2]
        constructor
        · rintro ⟨c, hc, hp⟩
          rcases List.mem_cons.1 hc with rfl | hc
          · exact Or.inl (List.nil_perm.1 hp)
          · exact Or.inr ⟨c, hc, hp⟩
        · rintro (rfl | ⟨c, hc, hp⟩)
          · exact ⟨[], by simp, List.Perm.refl _⟩
          · exact ⟨c, by simp [hc], hp⟩
      · intro c hc
        rcases List.mem_cons.1 hc with rfl | hc
        · simpa using hr
        · have : c ≠ [] := fun e => hnil (e ▸ hc)
          simpa [this] using h3 c hc
      · rw [List.map_cons, List.sum_cons]
        congr 1
        · simp
        · congr 1
          refine List.map_congr_left fun c hc => ?_
          have : c ≠ [] := fun e => hnil (e ▸ hc)
          simp [this]
    refine ⟨_, _, _, Int.le_refl _, key hG rfl hr hV, key hG' hsymm hr' hW, ?_⟩
    have : I.value orb (s * c) (a.tensors ++ b.tensors) op = I.value orb (s * c) (b.tensors ++ a.tensors) op :=
      I.value_perm orb _ List.perm_append_comm _
    rw [this]
    abel
  · exact ⟨V, W, maxOpen, by omega, hV, hW, rfl⟩

/-- The value of a commutator when nothing but the uncontracted product is cut off. -/
theorem IsCommutatorValue.eq_commutator {a b : Term} (hG : GoodOps [a.sqOp, b.sqOp]) (he : Even (stringWord a.sqOp).length ∨ Even (stringWord b.sqOp).length) (hd : DisjointLabels a b)
    {field : Bool × O → A} (hf : Fermions field) {I : Interp O R A} (hno : I.NormalOrdered field) (hI : I.Antisymmetric) {orb : Orbitals O}
    (hph : I.Physical orb) (hac : I.ActiveCumulants orb) {scale : ℚ} {maxCu maxOpen minOpen : Int} (hcu : I.CumulantsUpTo maxCu)
    (hmin : minOpen ≤ 0) (hmax : (nOperators [a.sqOp, b.sqOp] : Int) ≤ maxOpen + 2) {F : A}
    (hF : IsCommutatorValue I orb scale maxCu maxOpen minOpen a b F) :
    F = (algebraMap ℚ R scale) • (I.value orb a.coeff a.tensors a.sqOp * I.value orb b.coeff b.tensors b.sqOp -
      I.value orb b.coeff b.tensors b.sqOp * I.value orb a.coeff a.tensors a.sqOp) := by
  have scalar : ∀ t : Term, t.sqOp.upper.list = [] ∧ t.sqOp.lower.list = [] → ∃ r : R, I.value orb t.coeff t.tensors t.sqOp = r • (1 : A) := by
    intro t ht
    unfold Interp.value
    simp only [opval_empty hno _ ht.1 ht.2]
    rw [← Finset.sum_smul, ← mul_smul]
    exact ⟨_, rfl⟩
  by_cases h1 : a.sqOp.upper.list = [] ∧ a.sqOp.lower.list = []
  · obtain ⟨r, hr⟩ := scalar a h1
    rcases hF with ⟨-, rfl⟩ | hF
    · rw [hr, smul_mul_assoc, mul_smul_comm, one_mul, mul_one, sub_self, smul_zero]
    · exact absurd (Or.inl h1) hF.1
  by_cases h2 : b.sqOp.upper.list = [] ∧ b.sqOp.lower.list = []
  · obtain ⟨r, hr⟩ := scalar b h2
    rcases hF with ⟨-, rfl⟩ | hF
    · rw [hr, smul_mul_assoc, mul_smul_comm, one_mul, mul_one, sub_self, smul_zero]
    · exact absurd (Or.inr h2) hF.1
  have hF := hF.resolve_left (by tauto)
  obtain ⟨-, V, W, hV, hW, rfl⟩ := hF
  obtain ⟨V', W', max, hmax, hV, hW, e⟩ := hV.widen hG he hmin hmax hW
  have hsymm : nOperators [b.sqOp, a.sqOp] = nOperators [a.sqOp, b.sqOp] := by simp [nOperators, add_comm]
  have p1 : properOps [a, b] = [a.sqOp, b.sqOp] := properOps_pair (by tauto) (by tauto)
  have p2 : properOps [b, a] = [b.sqOp, a.sqOp] := properOps_pair (by tauto) (by tauto)
  have k1 := IsContraction.eq_prod (terms := [a, b]) (by rw [p1]; exact hG) (by simpa using hd) hf hno hI hph hac hcu hmin
    (maxOpen := max) (by rw [p1]; exact hmax) (scale := scale) (V := V') (by simpa [p1, allTensors] using hV)
  have k2 := IsContraction.eq_prod (terms := [b, a]) (by rw [p2]; exact hG.symm) (by simpa [DisjointLabels] using Disjoint.symm hd) hf hno hI hph hac hcu hmin
    (maxOpen := max) (by rw [p2, hsymm]; exact hmax) (scale := scale) (V := W') (by simpa [p2, allTensors, mul_comm b.coeff] using hW)
  rw [e, k1, k2, ← smul_sub]
  simp

omit [Fintype O] [DecidableEq O] [Inhabited O] [CommRing R] [Algebra ℚ R] [Ring A] [Algebra R A] in
theorem mem_operatorLabels {terms : List Term} {i : Index} :
    i ∈ operatorLabels terms ↔ ∃ op ∈ properOps terms, i ∈ op.upper.list ++ op.lower.list := by
  unfold operatorLabels properOps
  simp only [List.mem_flatMap, List.mem_filter, List.mem_map, decide_eq_true_eq]
  constructor
  · rintro ⟨t, ht, hi⟩
    refine ⟨t.sqOp, ⟨⟨t, ht, rfl⟩, ?_⟩, hi⟩
    rcases List.mem_append.1 hi with hi | hi
    · exact Or.inl (List.ne_nil_of_mem hi)
    · exact Or.inr (List.ne_nil_of_mem hi)
  · rintro ⟨op, ⟨⟨t, ht, rfl⟩, -⟩, hi⟩
    exact ⟨t, ht, hi⟩

/-- A product in which at most one operator is not empty. -/
theorem trivial_value {first : Term} {rest : List Term} (h2 : (properOps (first :: rest)).length < 2) (hd : (first :: rest).Pairwise DisjointLabels)
    {field : Bool × O → A} {I : Interp O R A} (hno : I.NormalOrdered field) (orb : Orbitals O) (scale : ℚ) :
    I.value orb (scale * ((first :: rest).map Term.coeff).prod) (allTensors (first :: rest)) ((properOps (first :: rest)).headD first.sqOp) =
      (algebraMap ℚ R scale) • ((first :: rest).map fun t => I.value orb t.coeff t.tensors t.sqOp).prod := by
  have hempty : properOps (first :: rest) = [] → first.sqOp.upper.list = [] ∧ first.sqOp.lower.list = [] := by
    intro h
    by_contra hc
    have : first.sqOp ∈ properOps (first :: rest) := by
      unfold properOps
      refine List.mem_filter.2 ⟨by simp, by simp only [decide_eq_true_eq]; tauto⟩
    rw [h] at this
    simp at this
  have hl : labelsOf (allTensors (first :: rest)) ((properOps (first :: rest)).headD first.sqOp) = allLabels (first :: rest) := by
    ext i
    unfold labelsOf allLabels
    rw [List.mem_toFinset, List.mem_toFinset, List.mem_append, List.mem_append (t := operatorLabels _), mem_operatorLabels, or_comm]
    refine or_congr Iff.rfl ?_
    match h : properOps (first :: rest), h2 with
    | [], _ => simp [hempty h]
    | [op], _ => simp
  rw [prod_value I orb hd, Interp.value, hl, map_mul, mul_smul]
  congr 2
  refine Finset.sum_congr rfl fun σ _ => ?_
  rw [← prod_properOps hno]
  congr 1
  match h : properOps (first :: rest), h2 with
  | [], _ => simpa using opval_empty hno _ (hempty h).1 (hempty h).2
  | [op], _ => simp

end

end Dsrg
