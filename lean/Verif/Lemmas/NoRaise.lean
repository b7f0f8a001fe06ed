import Verif.Lemmas.RowTotal
import Verif.Model.Raises
import Verif.Props.Contract

/-!
No run of the contraction of terms and of commutators raises an exception, on terms built from the operators of the library.
-/

namespace Dsrg

theorem not_error {α : Type} {x : Except PyErr α} {a : α} (h : x = .ok a) : ¬ ∃ e, x = .error e := by
  rintro ⟨e, he⟩
  rw [h] at he
  cases he

/-! ### The factors -/

/-- A term with one tensor whose labels are those of the operator. -/
theorem LiveTerm.single {t : Term} {x : Tensor} (g : GoodTerm t) (ht : t.tensors = [x]) (hnd : x.isDensity = false)
    (hop : (t.sqOp.upper = x.lower ∧ t.sqOp.lower = x.upper) ∨ (t.sqOp.upper = x.upper ∧ t.sqOp.lower = x.lower)) (hpos : x.upper.list ≠ [])
    (hhalf : x.cls = .cluster → ClusterHalf (x.upper.list.map Index.space) ∧ ClusterHalf (x.lower.list.map Index.space)) : LiveTerm t := by
  have hx : x ∈ t.tensors := by rw [ht]; simp
  have hb := g.op.not_beta
  have hlen : x.upper.list.length = x.lower.list.length := by
    have := g.bal
    rcases hop with ⟨e1, e2⟩ | ⟨e1, e2⟩ <;> rw [e1, e2] at this
    · exact this.symm
    · exact this
  have hcum : x.cls ≠ .cumulant ∧ x.cls ≠ .hole ∧ x.cls ≠ .kronecker := by
    refine ⟨?_, ?_, ?_⟩ <;> intro e <;> simp [Tensor.isDensity, e] at hnd
  refine ⟨⟨?_, g.op.1, g.op.2.1, g.bal, ?_, g.tidy.two, ?_⟩, ?_, ⟨x, hx, hnd⟩⟩
  · intro y hy
    obtain rfl : y = x := by simpa [ht] using hy
    exact ⟨(g.tensor y hx).1, (g.tensor y hx).2, hlen, hpos, fun h => h.elim (fun h => absurd h hcum.2.1) fun h => absurd h hcum.2.2, hhalf, fun h => absurd rfl h⟩
  · intro _ i hi
    have hop' : i ∈ t.sqOp.upper.list ∨ i ∈ t.sqOp.lower.list := by
      rw [mem_labelList] at hi
      rcases hi with hi | ⟨y, hy, hi⟩
      · exact List.mem_append.1 hi
      · obtain rfl : y = x := by simpa [ht] using hy
        have hi : i ∈ y.upper.list ∨ i ∈ y.lower.list := List.mem_append.1 hi
        rcases hop with ⟨e1, e2⟩ | ⟨e1, e2⟩ <;> rw [e1, e2]
        · exact hi.symm
        · exact hi
    rcases hop' with hi | hi
    · exact hb.1 i hi
    · exact hb.2 i hi
  · rcases hop with ⟨e1, e2⟩ | ⟨e1, e2⟩
    · refine TwoSided.of_oriented (m := [(true, pairBlock x.pair)]) (by rw [ht]; rfl) ?_
      rw [e1, e2, sideA_cons, sideB_cons]
      show (x.lower.list ++ (x.upper.list ++ [])).Perm (x.upper.list ++ (x.lower.list ++ []))
      rw [List.append_nil, List.append_nil]
      exact List.perm_append_comm
    · refine TwoSided.of_oriented (m := [(false, pairBlock x.pair)]) (by rw [ht]; rfl) ?_
      rw [e1, e2, sideA_cons, sideB_cons]
      show (x.upper.list ++ (x.lower.list ++ [])).Perm (x.lower.list ++ (x.upper.list ++ []))
      rw [List.append_nil, List.append_nil]
      exact List.perm_append_comm
  · intro y hy
    obtain rfl : y = x := by simpa [ht] using hy
    intro h; exact absurd h hcum.1

theorem cluster_live {k start : Nat} (hk : 1 ≤ k) {excitation : Bool} {scale : ℚ} {singleRef : Bool} {t : Term}
    (h : clusterOperator k start excitation ['T'] scale (holeSpace singleRef) (particleSpace singleRef) .spinOrbital = .ok t) : LiveTerm t := by
  have hb1 : (holeSpace singleRef).beta = false := by cases singleRef <;> rfl
  have hb2 : (particleSpace singleRef).beta = false := by cases singleRef <;> rfl
  have g := (cluster_good h).1
  obtain ⟨t', x, h1, h2, h3, h4, h5, h6, h7, h8, h9⟩ := C38_cluster k start excitation ['T'] scale (holeSpace singleRef) (particleSpace singleRef) .spinOrbital
    (hb1.trans hb2.symm) fun _ => hb1
  rw [h] at h1
  injection h1 with h1
  subst h1
  refine LiveTerm.single g h2 (by simp [Tensor.isDensity, h3]) (by
    cases excitation
    · exact Or.inr ⟨h7, h8⟩
    · exact Or.inl ⟨h7, h8⟩) ?_ ?_
  · rw [h5]
    intro e
    have := congrArg List.length e
    rw [length_consecutive] at this
    simp at this; omega
  · intro _
    have key : ∀ s : Space, (s = ⟨.c, false⟩ ∨ s = ⟨.h, false⟩ ∨ s = ⟨.v, false⟩ ∨ s = ⟨.p, false⟩) → ∀ lo, ClusterHalf ((consecutive s lo k).map Index.space) := by
      intro s hs lo
      have hm : ∀ s' ∈ (consecutive s lo k).map Index.space, s' = s := by
        intro s' hs'
        obtain ⟨i, hi, rfl⟩ := List.mem_map.1 hs'
        rw [mem_consecutive] at hi
        exact hi.1
      refine ⟨?_, ?_⟩
      · rintro ⟨⟨a, ha, ha'⟩, b, hb, hb'⟩
        rw [hm a ha] at ha'
        rw [hm b hb] at hb'
        clear hm ha hb
        have key : ∀ k ∈ [Kind.c, .h, .v, .p], ¬ (holeKind k ∧ partKind k) := by unfold holeKind partKind; decide
        exact key s.kind (by rcases hs with rfl | rfl | rfl | rfl <;> simp) ⟨ha', hb'⟩
      · intro a ha
        rw [hm a ha]
        rcases hs with rfl | rfl | rfl | rfl <;> decide
    rw [h5, h6]
    exact ⟨key _ (by cases singleRef <;> simp [holeSpace]) _, key _ (by cases singleRef <;> simp [particleSpace]) _⟩

theorem hamiltonian_live {k start : Nat} (hk : 1 ≤ k) {t : Term} (h : hamiltonianOperator k start .spinOrbital = .ok t) : LiveTerm t := by
  have g := (hamiltonian_good_from h).1
  obtain ⟨t', x, h1, h2, h3, h4, h5, h6, h7, h8, h9⟩ := C38_hamiltonian k start .spinOrbital
  rw [h] at h1
  injection h1 with h1
  subst h1
  refine LiveTerm.single g h2 (by simp [Tensor.isDensity, h3]) (Or.inl ⟨h7, h8⟩) ?_ (by intro e; rw [h3] at e; cases e)
  rw [h5]
  intro e
  have := congrArg List.length e
  rw [length_consecutive] at this
  simp at this; omega

theorem expand_live {ord : SetOrder} (hord : ord.Lawful) {k : Nat} (hk : 1 ≤ k) {t : Term} (h : hamiltonianOperator k 0 .spinOrbital = .ok t)
    {rows : List Term} (hr : t.expandCompositeIndices ord true 0 = .ok rows) : ∀ r ∈ rows, LiveTerm r := by
  intro r hrm
  obtain ⟨g, -, -, -, x, h1, h2, h3, h4, h5⟩ := expand_good hord h hr r hrm
  refine LiveTerm.single g h1 (by simp [Tensor.isDensity, h2]) (Or.inl ⟨h4, h5⟩) ?_ (by intro e; rw [h2] at e; cases e)
  intro e
  rw [e] at h3
  simp at h3; omega

/-! ### Lists of terms -/

/-- The terms of a list that do not vanish. -/
def LiveList (l : List Term) : Prop := ∀ t ∈ l, t.coeff ≠ 0 → LiveTerm t

theorem LiveList.append {l l' : List Term} (h : LiveList l) (h' : LiveList l') : LiveList (l ++ l') := by
  intro t ht
  rcases List.mem_append.1 ht with ht | ht
  · exact h t ht
  · exact h' t ht

/-- The terms that `combine_terms` returns. -/
theorem LiveList.combine {l out : List Term} (h : ∀ t ∈ l, GoodTerm t) (hl : LiveList l) (hc : combineTerms l = .ok out) :
    ∀ t ∈ out, GoodTerm t ∧ LiveTerm t := by
  have hreg := regular_of_good h
  rw [combineTerms_eq hreg] at hc
  injection hc with hc
  subst hc
  intro x hx
  obtain ⟨t, ht, a, b, c, d⟩ := ((combinedList_spec hreg).1 _ _ _).1 ⟨x, (sortedTerms_perm _).mem_iff.1 hx, rfl⟩
  have hx : x.Same t := ⟨a.symm, b.symm⟩
  refine ⟨(h t ht).of_same hx, ?_⟩
  have h0 : totalCoeff l t ≠ 0 := by
    intro e
    rw [c, e, abs_zero] at d
    norm_num at d
  have : ∃ y ∈ l, y.Same t ∧ y.coeff ≠ 0 := by
    by_contra hno
    push Not at hno
    refine h0 (List.sum_eq_zero fun c hc => ?_)
    obtain ⟨y, hy, rfl⟩ := List.mem_map.1 hc
    rw [List.mem_filter] at hy
    exact hno y hy.1 (by simpa using hy.2)
  obtain ⟨y, hy, e, hne⟩ := this
  exact (hl y hy hne).of_same ⟨hx.1.trans e.1.symm, hx.2.trans e.2.symm⟩

theorem combine_total {l : List Term} (h : ∀ t ∈ l, GoodTerm t) : ∃ out, combineTerms l = .ok out := ⟨_, combineTerms_eq (regular_of_good h)⟩

theorem combine_noRaise {l : List Term} (h : ∀ t ∈ l, GoodTerm t) : ¬ ∃ e, combineTerms l = .error e :=
  not_error (combineTerms_eq (regular_of_good h))

/-! ### Constructors -/

/-- The constructor accepts the factors of a good term. -/
theorem make_paired {ts : List Tensor} {op : SqOp} (hop : op.upper.ty = .spinOrbital) (ht : ∀ x ∈ ts, x.upper.ty = .spinOrbital)
    (h2 : ∀ i ∈ labelList ts op, (labelList ts op).count i = 2) (c : ℚ) :
    ∃ t, Term.make ts op c = .ok t ∧ t.tensors.Perm ts ∧ t.sqOp = op ∧ t.coeff = c :=
  ⟨_, Term.make_ok.2 ⟨fun x hx => (ht x hx).trans hop.symm, fun i hi _ => h2 i hi, fun i hi => by
      rw [h2 i]
      rw [mem_diagonalOf] at hi
      rw [mem_labelList]
      rcases hi with hi | ⟨x, hx, hi⟩
      · exact Or.inl (List.mem_append_left _ hi.1)
      · exact Or.inr ⟨x, hx, List.mem_append_left _ hi.1⟩, rfl⟩, sortTensors_perm ts, rfl, rfl⟩

/-- `from_term` copies a good term. -/
theorem fromTerm_total {t : Term} (h : GoodTerm t) : ∃ r, t.fromTerm false false = .ok r := by
  have hc : t.sqOp.clone false = .ok t.sqOp := by
    simp [IndicesPair.clone, IndicesPair.make, h.op.1, h.op.2.1]
  obtain ⟨r, hr, -⟩ := make_paired h.op.1 (fun x hx => (h.tensor x hx).1) h.tidy.two (1 * t.coeff)
  refine ⟨r, ?_⟩
  unfold Term.fromTerm
  rw [bind_ok_of hc]
  simpa using hr

theorem copies_total {l : List Term} (h : ∀ t ∈ l, GoodTerm t) : ∃ out, (l.mapM fun t => t.fromTerm false false) = .ok out := by
  obtain ⟨bs, hbs⟩ := exists_forall₂ (R := fun t r => t.fromTerm false false = .ok r) fun t ht => fromTerm_total (h t ht)
  exact ⟨bs, mapM_of_forall₂ hbs⟩

theorem copies_live {l out : List Term} (h : ∀ t ∈ l, GoodTerm t ∧ LiveTerm t) (hc : (l.mapM fun t => t.fromTerm false false) = .ok out) :
    ∀ t ∈ out, GoodTerm t ∧ LiveTerm t := by
  intro x hx
  obtain ⟨t, ht, e⟩ := forall₂_mem_right (forall₂_of_mapM hc) hx
  obtain ⟨h1, h2, -⟩ := fromTerm_copy e
  exact ⟨(h t ht).1.congr h1 h2, (h t ht).2.congr h1 h2⟩

/-! ### Products with fewer than two operators -/

theorem flatMap_productOps (terms : List Term) : (productOps terms).flatMap (fun op => op.upper.list) = terms.flatMap (fun t => t.sqOp.upper.list) ∧
    (productOps terms).flatMap (fun op => op.lower.list) = terms.flatMap (fun t => t.sqOp.lower.list) := by
  induction terms with
  | nil => exact ⟨rfl, rfl⟩
  | cons t terms ih =>
    rw [List.flatMap_cons, List.flatMap_cons]
    by_cases h0 : t.sqOp.size = 0
    · have h1 : productOps (t :: terms) = productOps terms := by
        unfold productOps; rw [List.map_cons, List.filter_cons, if_neg (by simpa using h0)]
      have e1 : t.sqOp.upper.list = [] := List.length_eq_zero_iff.1 (by unfold IndicesPair.size IndicesPair.nUpper Indices.size at h0; omega)
      have e2 : t.sqOp.lower.list = [] := List.length_eq_zero_iff.1 (by unfold IndicesPair.size IndicesPair.nLower Indices.size at h0; omega)
      rw [h1, e1, e2]
      exact ih
    · have h1 : productOps (t :: terms) = t.sqOp :: productOps terms := by
        unfold productOps; rw [List.map_cons, List.filter_cons, if_pos (by simpa using h0)]
      rw [h1, List.flatMap_cons, List.flatMap_cons, ih.1, ih.2]
      exact ⟨rfl, rfl⟩

/-- The operator of a product with fewer than two operators that are not empty. -/
theorem headOp {first : Term} {rest : List Term} (h : (productOps (first :: rest)).length < 2) :
    (∃ t ∈ first :: rest, (productOps (first :: rest)).headD first.sqOp = t.sqOp) ∧
    ((productOps (first :: rest)).headD first.sqOp).upper.list = (first :: rest).flatMap (fun t => t.sqOp.upper.list) ∧
    ((productOps (first :: rest)).headD first.sqOp).lower.list = (first :: rest).flatMap (fun t => t.sqOp.lower.list) := by
  obtain ⟨e1, e2⟩ := flatMap_productOps (first :: rest)
  rw [← e1, ← e2]
  cases hp : productOps (first :: rest) with
  | nil =>
    have h0 : first.sqOp.size = 0 := by
      by_contra h0
      have : first.sqOp ∈ productOps (first :: rest) := List.mem_filter.2 ⟨List.mem_map_of_mem (by simp), by simpa using h0⟩
      rw [hp] at this
      simp at this
    refine ⟨⟨first, by simp, rfl⟩, ?_, ?_⟩
    · show first.sqOp.upper.list = []
      exact List.length_eq_zero_iff.1 (by unfold IndicesPair.size IndicesPair.nUpper Indices.size at h0; omega)
    · show first.sqOp.lower.list = []
      exact List.length_eq_zero_iff.1 (by unfold IndicesPair.size IndicesPair.nLower Indices.size at h0; omega)
  | cons op ops =>
    rw [hp] at h
    have : ops = [] := List.length_eq_zero_iff.1 (by rw [List.length_cons] at h; omega)
    subst this
    refine ⟨?_, by simp, by simp⟩
    have : op ∈ productOps (first :: rest) := by rw [hp]; simp
    obtain ⟨t, ht, e⟩ := List.mem_map.1 (List.mem_filter.1 this).1
    exact ⟨t, ht, e.symm⟩

theorem product_live {first : Term} {rest : List Term} (h : ∀ t ∈ first :: rest, GoodTerm t) (hlive : ∀ t ∈ first :: rest, LiveTerm t)
    (hd : (first :: rest).Pairwise DisjointLabels) (h2 : (productOps (first :: rest)).length < 2) (c : ℚ) :
    ∃ t, Term.make (productTensors (first :: rest)) ((productOps (first :: rest)).headD first.sqOp) c = .ok t ∧ GoodTerm t ∧ LiveTerm t := by
  set terms := first :: rest with hterms
  set op := (productOps terms).headD first.sqOp with hop
  obtain ⟨⟨t₀, ht₀, e₀⟩, eu, el⟩ := headOp h2
  rw [← hterms, ← hop] at eu el e₀
  have ho := ordinary_of_good h hd
  have hG := goodOps_productOps ho.ops
  have hA : Allowed (productOps terms) 0 (nOperators (productOps terms)) (nOperators (productOps terms)) [] :=
    ⟨List.nodup_nil, by simp, List.Pairwise.nil, by simp, by simp⟩
  have hrow : ∃ row, row ∈ resultRows (productOps terms) false [] ∧ row.2.1 = [] := by
    unfold resultRows
    exact ⟨_, List.mem_map.2 ⟨_, by simp; rfl, rfl⟩, rfl⟩
  obtain ⟨row, hrow, hnil⟩ := hrow
  have hp := row_paired h hd hA hrow
  obtain ⟨su, sl⟩ := row_sides (conserves hG hA false row hrow)
  rw [hnil, List.flatMap_nil, List.nil_append] at su sl
  rw [hnil, List.append_nil] at hp
  rw [← eu] at su
  rw [← el] at sl
  have hL : (labelList (allTensors terms) op).Perm (labelList (allTensors terms) row.2.2) := by
    unfold labelList
    exact (su.append sl).symm.append_right _
  have hO : (outerList (allTensors terms) op).Perm (outerList (allTensors terms) row.2.2) := by
    unfold outerList
    exact (su.append sl).symm.append_right _
  have two : ∀ i ∈ labelList (allTensors terms) op, (labelList (allTensors terms) op).count i = 2 := fun i hi => by
    rw [hL.count_eq]; exact hp.two i (hL.mem_iff.1 hi)
  have hmem : ∀ x ∈ allTensors terms, ∃ t ∈ terms, x ∈ t.tensors := fun x hx => List.mem_flatMap.1 hx
  obtain ⟨t, ht, t1, t2, -⟩ := make_paired (op := op) (ts := allTensors terms) (by rw [e₀]; exact (h t₀ ht₀).op.1) (fun x hx => by
    obtain ⟨t, ht, hx⟩ := hmem x hx
    exact ((h t ht).tensor x hx).1) two c
  refine ⟨t, by rw [← allTensors_eq]; exact ht, ?_, ?_⟩
  · have g : GoodTerm { t with tensors := allTensors terms, sqOp := op } := by
      refine ⟨?_, ?_, by show SpinOrbitalOp op; rw [e₀]; exact (h t₀ ht₀).op, ⟨⟨two, hO.nodup_iff.2 hp.outer, hp.active⟩, ?_⟩, by show op.upper.list.length = op.lower.list.length; rw [e₀]; exact (h t₀ ht₀).bal⟩
      · intro x hx
        obtain ⟨t, ht, hx⟩ := hmem x hx
        exact (h t ht).kind x hx
      · intro x hx
        obtain ⟨t, ht, hx⟩ := hmem x hx
        exact (h t ht).tensor x hx
      · intro x hx
        obtain ⟨t, ht, hx⟩ := hmem x hx
        exact (h t ht).tidy.noDelta x hx
    exact g.congr t1 t2
  · have g : LiveTerm { t with tensors := allTensors terms, sqOp := op } := by
      refine ⟨⟨?_, ?_, ?_, ?_, ?_, two, ?_⟩, ?_, ?_⟩
      · intro x hx
        obtain ⟨t, ht, hx⟩ := hmem x hx
        exact (hlive t ht).sound.tensor x hx
      · show op.upper.ty = _; rw [e₀]; exact (h t₀ ht₀).op.1
      · show op.lower.ty = _; rw [e₀]; exact (h t₀ ht₀).op.2.1
      · show op.upper.list.length = op.lower.list.length; rw [e₀]; exact (h t₀ ht₀).bal
      · intro _ i hi
        rw [mem_labelList] at hi
        rcases hi with hi | ⟨x, hx, hi⟩
        · refine (hlive t₀ ht₀).sound.beta rfl i ?_
          rw [mem_labelList, ← e₀]
          exact Or.inl hi
        · obtain ⟨t, ht, hx⟩ := hmem x hx
          refine (hlive t ht).sound.beta rfl i ?_
          rw [mem_labelList]
          exact Or.inr ⟨x, hx, hi⟩
      · obtain ⟨m, m1, m2⟩ := sides_terms fun t ht => (hlive t ht).sound.sided
        refine TwoSided.of_oriented m1 ?_
        show (op.upper.list ++ _).Perm (op.lower.list ++ _)
        rw [eu, el]
        exact m2
      · intro x hx
        obtain ⟨t, ht, hx⟩ := hmem x hx
        exact (hlive t ht).low x hx
      · obtain ⟨x, hx, hxd⟩ := (hlive first (by simp [hterms])).keep
        exact ⟨x, List.mem_flatMap.2 ⟨first, by simp [hterms], hx⟩, hxd⟩
    exact g.congr t1 t2

/-! ### The enumeration of contractions -/

theorem general_noRaise {ops : List SqOp} (h : GoodOps ops) (maxCu maxOpen minOpen : Int) (expand : Bool) :
    ¬ GeneralRaises ops maxCu maxOpen minOpen expand := by
  obtain ⟨ele, hele, hnd, hmem⟩ := elementaryList_spec h maxCu
  obtain ⟨rows, hrows, hcompat⟩ := C27_compatible_list .spinOrbital ele
    fun t ht => (proper_of_elementary h ((hmem t).1 ht)).ty
  have hsym : ∀ i j, compatOf rows i j = compatOf rows j i := by
    intro i j
    unfold compatOf
    congr 1
    rw [hcompat, hcompat, eq_iff_iff]
    constructor
    · rintro ⟨h1, a, b, h2, h3, h4⟩; exact ⟨h1.symm, b, a, h3, h2, h4.symm⟩
    · rintro ⟨h1, a, b, h2, h3, h4⟩; exact ⟨h1.symm, b, a, h3, h2, h4.symm⟩
  rintro (he | ⟨ele', he, hr⟩)
  · exact not_error hele he
  rw [hele] at he
  injection he with he
  subst he
  rcases hr with hr | ⟨rows', he, hr⟩
  · exact not_error hrows hr
  rw [hrows] at he
  injection he with he
  subst he
  rcases hr with ⟨-, -, hr⟩ | ⟨out, a', c', d, hrun, s, hs, con, hn, rfl, hr⟩
  · exact not_error (uncontracted_ok h expand) hr
  obtain ⟨_, _, hon, hout⟩ := C28_general_backtrack _ hsym _ _ _ _ _ hrun
  obtain ⟨_, h2, h3, _, _⟩ := (hout con.toFinset).1 hs
  have hlt : ∀ i ∈ con, i < ele.length := fun i hi => by simpa using h2 (List.mem_toFinset.2 hi)
  unfold processComposite at hr
  rw [mapM_listGet hlt] at hr
  refine not_error (assemble_ok h ⟨?_, ?_⟩ expand) hr
  · intro t ht
    rw [List.mem_map] at ht
    obtain ⟨i, hi, rfl⟩ := ht
    exact proper_of_elementary h ((hmem _).1 (pick_mem (hlt i hi)))
  · rw [List.pairwise_map]
    refine List.Pairwise.imp_of_mem ?_ hn
    intro i j hi hj hij
    have := h3 i (List.mem_toFinset.2 hi) j (List.mem_toFinset.2 hj) hij
    simp only [compatOf, decide_eq_true_eq, hcompat] at this
    obtain ⟨_, a, b, ha, hb, hs⟩ := this
    rw [pick_eq ha, pick_eq hb]; exact hs

theorem connected_noRaise {ops : List SqOp} (h : GoodOps ops) (maxCu maxOpen minOpen : Int) (expand : Bool) :
    ¬ ConnectedRaises ops maxCu maxOpen minOpen expand := by
  obtain ⟨d, hd, hx⟩ := coded h maxCu
  rintro (he | ⟨d', he, h0, hr⟩)
  · exact not_error hd he
  rw [hd] at he
  injection he with he
  subst he
  obtain ⟨rows, hrows, _, hcompat⟩ := C27_compatible_categorized .spinOrbital ⟨d, sortCategories (d.map Prod.fst)⟩ hx.nodupCats
    (fun c hc t ht => (proper_of_elementary h (hx.getMem c hc t ht)).ty)
    (fun c hc t ht => (proper_of_elementary h (hx.getMem c hc t ht)).ne)
  obtain ⟨hc, hsym⟩ := compat_of_rows hx hcompat
  rcases hr with hr | ⟨rows', he, comCat, hcc, out, target', hrun, con, hcon, hr⟩
  · exact not_error hrows hr
  rw [hrows] at he
  injection he with he
  subst he
  have hav : ∀ c ∈ comCat, c ∈ sortCategories (d.map Prod.fst) := by
    intro c hcm
    by_cases hops : ops = []
    · subst hops
      exfalso
      obtain ⟨e0, he0⟩ : ∃ e, e ∈ d := List.exists_mem_of_ne_nil _ fun e => h0 (by rw [e]; rfl)
      have hm : e0.1 ∈ sortCategories (d.map Prod.fst) := (C31_sequence (d.map Prod.fst)).1.mem_iff.2 (List.mem_map.2 ⟨e0, he0, rfl⟩)
      obtain ⟨t, ht, _⟩ := (hx.cats _).1 hm
      obtain ⟨i, hi⟩ := List.exists_mem_of_ne_nil _ (proper_of_elementary h ht).ne
      have := (proper_of_elementary h ht).upperSub i hi
      simp at this
    · refine ((C30_sound _ _ _ _ _ hx.nodupCats ?_ ?_).1 comCat hcc).available c hcm
      · intro c hcm
        obtain ⟨t, ht, rfl⟩ := (hx.cats c).1 hcm
        have hp := proper_of_elementary h ht
        refine ⟨⟨_, length_ownersOf hp⟩, ?_, ?_⟩
        · obtain ⟨k, hk, _⟩ := two_owners h ht
          exact List.ne_nil_of_mem hk
        · intro k hk
          obtain ⟨op, hop, _⟩ := (mem_ownersOf h hp).1 hk
          rw [List.length_map]; exact lt_length_of_getElem? hop
      · simpa using hops
  have hm := (categorized_ok h hx hc hsym hav hrun expand).2
  obtain ⟨r, -, e⟩ := forall₂_mem_left (forall₂_of_mapM hm) hcon
  exact not_error e hr

theorem contractions_noRaise {ops : List SqOp} (h : GoodOps ops) (o : Options) : ¬ ContractionsRaise ops o := by
  unfold ContractionsRaise
  split_ifs
  · exact connected_noRaise h _ _ _ _
  · exact general_noRaise h _ _ _ _

theorem contractions_total {ops : List SqOp} (h : GoodOps ops) (o : Options) : ∃ batches, ContractionsRun ops o batches := by
  unfold ContractionsRun
  split_ifs
  · exact C34_connected_total ops h _ _ _ _ _
  · exact C34_general_total ops h _ _ _ _ _

/-! ### Batches -/

/-- The rows are canonicalized without exception. -/
def FineRows (m : Machine) (tensors : List Tensor) (c : ℚ) (hermitian : Bool) (rows : List Row) : Prop :=
  ∀ row ∈ rows, ∃ r, canonicalizeRow m tensors c hermitian row = .ok r ∧ GoodTerm r ∧ (r.coeff ≠ 0 → LiveTerm r)

theorem FineRows.results {m : Machine} {tensors : List Tensor} {c : ℚ} {hermitian : Bool} {rows : List Row}
    (h : FineRows m tensors c hermitian rows) : ∃ results, rows.mapM (canonicalizeRow m tensors c hermitian) = .ok results ∧
      (∀ t ∈ results, GoodTerm t) ∧ LiveList results := by
  obtain ⟨bs, hf⟩ := exists_forall₂ h
  refine ⟨bs, mapM_of_forall₂ (hf.imp fun _ _ h => h.1), ?_, ?_⟩
  · intro t ht
    obtain ⟨row, -, e⟩ := forall₂_mem_right hf ht
    exact e.2.1
  · intro t ht
    obtain ⟨row, -, e⟩ := forall₂_mem_right hf ht
    exact e.2.2

theorem delivered {n : Nat} {temp results : List Term} (h : if n = 1 then temp = results else temp.Perm results) : temp.Perm results := by
  split_ifs at h with h1
  · rw [h]
  · exact h

theorem BatchRun.fine {m : Machine} {n : Nat} {tensors : List Tensor} {c : ℚ} {simplify hermitian : Bool} {rows : List Row}
    (h : FineRows m tensors c hermitian rows) : (¬ BatchRaises m n rows tensors c simplify hermitian) ∧
      (∃ out, BatchRun m n rows tensors c simplify hermitian out) ∧
      ∀ out, BatchRun m n rows tensors c simplify hermitian out → (∀ t ∈ out, GoodTerm t) ∧ LiveList out := by
  obtain ⟨results, hm, hg, hl⟩ := h.results
  refine ⟨?_, ?_, ?_⟩
  · rintro ⟨-, ⟨row, hrow, hr⟩ | ⟨results', temp, e, hm', hp, -, hc⟩⟩
    · obtain ⟨r, hr', -⟩ := h row hrow
      exact not_error hr' hr
    · rw [hm] at hm'
      injection hm' with hm'
      subst hm'
      exact combine_noRaise (fun t ht => hg t ((delivered hp).mem_iff.1 ht)) ⟨e, hc⟩
  · unfold BatchRun
    by_cases h0 : rows.length = 0
    · exact ⟨[], by rw [if_pos h0]⟩
    have hp : if n = 1 then results = results else results.Perm results := by split_ifs <;> simp
    cases simplify with
    | false => exact ⟨results, by rw [if_neg h0]; exact ⟨results, results, hm, hp, by simp⟩⟩
    | true =>
      obtain ⟨out, ho⟩ := combine_total hg
      exact ⟨out, by rw [if_neg h0]; exact ⟨results, results, hm, hp, by rw [if_pos rfl]; exact ho⟩⟩
  · intro out ho
    unfold BatchRun at ho
    by_cases h0 : rows.length = 0
    · rw [if_pos h0] at ho
      subst ho
      simp [LiveList]
    rw [if_neg h0] at ho
    obtain ⟨results', temp, hm', hp, hc⟩ := ho
    rw [hm] at hm'
    injection hm' with hm'
    subst hm'
    cases simplify with
    | true =>
      have hg' : ∀ t ∈ temp, GoodTerm t := fun t ht => hg t ((delivered hp).mem_iff.1 ht)
      have hl' : LiveList temp := fun t ht => hl t ((delivered hp).mem_iff.1 ht)
      have := hl'.combine hg' hc
      exact ⟨fun t ht => (this t ht).1, fun t ht _ => (this t ht).2⟩
    | false =>
      obtain rfl : out = temp := hc
      exact ⟨fun t ht => hg t ((delivered hp).mem_iff.1 ht), fun t ht => hl t ((delivered hp).mem_iff.1 ht)⟩

theorem FineRows.append_left {m : Machine} {tensors : List Tensor} {c : ℚ} {hermitian : Bool} {rows rows' : List Row}
    (h : FineRows m tensors c hermitian (rows ++ rows')) : FineRows m tensors c hermitian rows := fun row hr => h row (List.mem_append_left _ hr)

theorem FineRows.append_right {m : Machine} {tensors : List Tensor} {c : ℚ} {hermitian : Bool} {rows rows' : List Row}
    (h : FineRows m tensors c hermitian (rows ++ rows')) : FineRows m tensors c hermitian rows' := fun row hr => h row (List.mem_append_right _ hr)

theorem LoopRun.fine {m : Machine} {o : Options} {n : Nat} {tensors : List Tensor} {c : ℚ} : ∀ {batches : List (List Row)} {pending : List Row},
    FineRows m tensors c o.hermitian (pending ++ batches.flatten) → (¬ LoopRaises m o n tensors c pending batches) ∧
      (∃ out, LoopRun m o n tensors c pending batches out) ∧
      ∀ out, LoopRun m o n tensors c pending batches out → (∀ t ∈ out, GoodTerm t) ∧ LiveList out := by
  intro batches
  induction batches with
  | nil =>
    intro pending h
    exact BatchRun.fine h.append_left
  | cons b bs ih =>
    intro pending h
    unfold LoopRaises LoopRun
    rw [List.flatten_cons, ← List.append_assoc] at h
    split_ifs with hlt
    · exact ih h
    · obtain ⟨a1, a2, a3⟩ := BatchRun.fine (n := n) (simplify := true) h.append_left
      obtain ⟨b1, b2, b3⟩ := ih (pending := []) (by rw [List.nil_append]; exact h.append_right)
      refine ⟨?_, ?_, ?_⟩
      · rintro (h1 | ⟨_, -, h1⟩)
        · exact a1 h1
        · exact b1 h1
      · obtain ⟨o1, h1⟩ := a2
        obtain ⟨o2, h2⟩ := b2
        exact ⟨_, o1, o2, h1, h2, rfl⟩
      · rintro out ⟨o1, o2, h1, h2, rfl⟩
        obtain ⟨c1, c2⟩ := a3 o1 h1
        obtain ⟨d1, d2⟩ := b3 o2 h2
        refine ⟨?_, c2.append d2⟩
        intro t ht
        rcases List.mem_append.1 ht with ht | ht
        · exact c1 t ht
        · exact d1 t ht

/-! ### Products of terms -/

theorem row_out {m : Machine} {terms : List Term} {maxCu maxOpen minOpen : Int} {expand : Bool} {c : List Tensor}
    (hA : Allowed (productOps terms) maxCu maxOpen minOpen c) {row : Row} (hrow : row ∈ resultRows (productOps terms) expand c) {k : ℚ} {hermitian : Bool}
    {r : Term} (hr : canonicalizeRow m (productTensors terms) k hermitian row = .ok r) : OutTerm terms r := by
  have hd := resultRows_density hA row hrow
  have hten : ∀ x ∈ productTensors terms, KindOk terms x := by
    intro x hx
    obtain ⟨t, ht, hx⟩ := List.mem_flatMap.1 hx
    exact Or.inl ⟨t, ht, x, hx, rfl⟩
  unfold resultRows at hrow
  obtain ⟨e, he, rfl⟩ := List.mem_map.1 hrow
  have he1 : e.1 = 1 ∨ e.1 = -1 := by
    split_ifs at he
    · exact (expandHoleDensities_labels c e he).1
    · simp only [List.mem_singleton] at he; subst he; exact Or.inl rfl
  refine (canonicalizeRow_out hten hd ?_ rfl hr).1
  have hrs : relSign (baseOrder (productOps terms)) (arranged (productOps terms) c) = 1 ∨
      relSign (baseOrder (productOps terms)) (arranged (productOps terms) c) = -1 := signPow_eq _
  rcases hrs with h1 | h1 <;> rcases he1 with h2 | h2 <;> simp [h1, h2]

/-- A term that the contraction of terms handles. -/
def NiceTerm (t : Term) : Prop := GoodTerm t ∧ LiveTerm t

theorem ContractRun.fine {m : Machine} (hcanon : CanonContract m.canon) (hord : m.ord.Lawful) (hcpu : 1 ≤ m.cpus) {o : Options} (hn : 1 ≤ o.nProcess)
    {terms : List Term} (hne : terms ≠ []) (h : ∀ t ∈ terms, NiceTerm t) (hd : terms.Pairwise DisjointLabels) (scale : ℚ) :
    (¬ ContractRaises m o terms scale) ∧ (∃ out, ContractRun m o terms scale out) ∧
      ∀ out, ContractRun m o terms scale out → ∀ t ∈ out, NiceTerm t := by
  have hg : ∀ t ∈ terms, GoodTerm t := fun t ht => (h t ht).1
  have hl : ∀ t ∈ terms, LiveTerm t := fun t ht => (h t ht).2
  obtain ⟨first, rest, rfl⟩ := List.exists_cons_of_ne_nil hne
  by_cases h2 : (productOps (first :: rest)).length < 2
  · obtain ⟨t, ht, t1, t2⟩ := product_live hg hl hd h2 (productCoeff (first :: rest) scale)
    unfold ContractRaises ContractRun
    simp only [if_pos h2]
    refine ⟨not_error ht, ⟨[t], t, ht, rfl⟩, ?_⟩
    rintro out ⟨t', ht', rfl⟩ u hu
    obtain rfl : u = t' := by simpa using hu
    rw [ht] at ht'
    injection ht' with ht'
    subst ht'
    exact ⟨t1, t2⟩
  · have ho := ordinary_of_good hg hd
    have hG := goodOps_productOps ho.ops
    have hrows : ∀ batches, ContractionsRun (productOps (first :: rest)) o batches →
        FineRows m (productTensors (first :: rest)) (productCoeff (first :: rest) scale) o.hermitian ([] ++ batches.flatten) := by
      intro batches hb row hrow
      rw [List.nil_append] at hrow
      obtain ⟨cs, -, -, hall, hperm⟩ := contractions_spec hG hb
      obtain ⟨c, hc, hrc⟩ := List.mem_flatMap.1 (hperm.mem_iff.1 hrow)
      obtain ⟨r, e, hr⟩ := canonicalizeRow_total hcanon hord hne hg hl hd (hall c hc) hrc (productCoeff (first :: rest) scale) o.hermitian
      exact ⟨r, e, (canonicalizeRow_good hcanon hord hg hd (hall c hc) hrc (row_out (hall c hc) hrc e) e).1, hr⟩
    have hmin : min o.nProcess m.cpus ≠ 0 := by omega
    unfold ContractRaises ContractRun
    simp only [if_neg h2]
    refine ⟨?_, ?_, ?_⟩
    · rintro (h0 | hr | ⟨batches, hb, hr | ⟨all, e, ha, hc⟩⟩)
      · exact hmin h0
      · exact contractions_noRaise hG o hr
      · exact (LoopRun.fine (hrows batches hb)).1 hr
      · exact combine_noRaise ((LoopRun.fine (hrows batches hb)).2.2 all ha).1 ⟨e, hc⟩
    · obtain ⟨batches, hb⟩ := contractions_total hG o
      obtain ⟨-, ⟨all, ha⟩, hf⟩ := LoopRun.fine (n := min o.nProcess m.cpus) (hrows batches hb)
      obtain ⟨out, hc⟩ := combine_total (hf all ha).1
      exact ⟨out, batches, all, hb, ha, hc⟩
    · rintro out ⟨batches, all, hb, ha, hc⟩
      obtain ⟨f1, f2⟩ := (LoopRun.fine (hrows batches hb)).2.2 all ha
      exact f2.combine f1 hc

/-! ### Commutators -/

theorem CommutatorRun.fine {m : Machine} (hcanon : CanonContract m.canon) (hord : m.ord.Lawful) (hcpu : 1 ≤ m.cpus) {o : Options} (hn : 1 ≤ o.nProcess)
    {a b : Term} (ha : NiceTerm a) (hb : NiceTerm b) (hd : DisjointLabels a b) (scale : ℚ) :
    (¬ CommutatorRaises m o a b scale) ∧ (∃ out, CommutatorRun m o a b scale out) ∧
      ∀ out, CommutatorRun m o a b scale out → ∀ t ∈ out, NiceTerm t := by
  have hba : DisjointLabels b a := Disjoint.symm hd
  obtain ⟨a1, a2, a3⟩ := ContractRun.fine hcanon hord hcpu hn (terms := [a, b]) (by simp) (by simp [ha, hb]) (by simpa using hd) scale
  obtain ⟨b1, b2, b3⟩ := ContractRun.fine hcanon hord hcpu hn (terms := [b, a]) (by simp) (by simp [ha, hb]) (by simpa using hba) (-scale)
  have hall : ∀ out₁ out₂, ContractRun m o [a, b] scale out₁ → ContractRun m o [b, a] (-scale) out₂ → ∀ t ∈ out₁ ++ out₂, NiceTerm t := by
    intro o1 o2 h1 h2 t ht
    rcases List.mem_append.1 ht with ht | ht
    · exact a3 o1 h1 t ht
    · exact b3 o2 h2 t ht
  refine ⟨?_, ?_, ?_⟩
  · rintro ⟨-, h | ⟨o1, h1, h | ⟨o2, e, h2, h⟩⟩⟩
    · exact a1 h
    · exact b1 h
    · exact combine_noRaise (fun t ht => (hall o1 o2 h1 h2 t ht).1) ⟨e, h⟩
  · unfold CommutatorRun
    split_ifs
    · exact ⟨[], rfl⟩
    · obtain ⟨o1, h1⟩ := a2
      obtain ⟨o2, h2⟩ := b2
      obtain ⟨out, h⟩ := combine_total fun t ht => (hall o1 o2 h1 h2 t ht).1
      exact ⟨out, o1, o2, h1, h2, h⟩
  · intro out ho
    unfold CommutatorRun at ho
    split_ifs at ho
    · subst ho; simp
    · obtain ⟨o1, o2, h1, h2, h⟩ := ho
      exact LiveList.combine (fun t ht => (hall o1 o2 h1 h2 t ht).1) (fun t ht _ => (hall o1 o2 h1 h2 t ht).2) h

theorem CommutatorsRun.fine {m : Machine} (hcanon : CanonContract m.canon) (hord : m.ord.Lawful) (hcpu : 1 ≤ m.cpus) {o : Options} (hn : 1 ≤ o.nProcess)
    (scale : ℚ) : ∀ {pairs : List (Term × Term)}, (∀ p ∈ pairs, NiceTerm p.1 ∧ NiceTerm p.2 ∧ DisjointLabels p.1 p.2) →
    (¬ CommutatorsRaise m o scale pairs) ∧ (∃ out, CommutatorsRun m o scale pairs out) ∧
      ∀ out, CommutatorsRun m o scale pairs out → ∀ t ∈ out, NiceTerm t := by
  intro pairs
  induction pairs with
  | nil =>
    intro _
    refine ⟨fun h => h, ⟨[], rfl⟩, ?_⟩
    rintro out h
    rw [show out = [] from h]
    simp
  | cons p pairs ih =>
    intro h
    obtain ⟨h1, h2, h3⟩ := h p (by simp)
    obtain ⟨a1, a2, a3⟩ := CommutatorRun.fine hcanon hord hcpu hn h1 h2 h3 scale
    obtain ⟨b1, b2, b3⟩ := ih fun q hq => h q (by simp [hq])
    refine ⟨?_, ?_, ?_⟩
    · rintro (h | ⟨-, -, h⟩)
      · exact a1 h
      · exact b1 h
    · obtain ⟨o1, h1⟩ := a2
      obtain ⟨o2, h2⟩ := b2
      exact ⟨_, o1, o2, h1, h2, rfl⟩
    · rintro out ⟨o1, o2, h1, h2, rfl⟩ t ht
      rcases List.mem_append.1 ht with ht | ht
      · exact a3 o1 h1 t ht
      · exact b3 o2 h2 t ht

theorem nice_combine {l out : List Term} (h : ∀ t ∈ l, NiceTerm t) (hc : combineTerms l = .ok out) : ∀ t ∈ out, NiceTerm t :=
  LiveList.combine (fun t ht => (h t ht).1) (fun t ht _ => (h t ht).2) hc

theorem LinearCommutatorRun.fine {m : Machine} (hcanon : CanonContract m.canon) (hord : m.ord.Lawful) (hcpu : 1 ≤ m.cpus) {o : Options} (hn : 1 ≤ o.nProcess)
    {lefts rights : List Term} (hl : ∀ t ∈ lefts, NiceTerm t) (hr : ∀ t ∈ rights, NiceTerm t) (hd : ∀ a ∈ lefts, ∀ b ∈ rights, DisjointLabels a b) (scale : ℚ) :
    (¬ LinearCommutatorRaises m o lefts rights scale) ∧ (∃ out, LinearCommutatorRun m o lefts rights scale out) ∧
      ∀ out, LinearCommutatorRun m o lefts rights scale out → ∀ t ∈ out, NiceTerm t := by
  have hp : ∀ p ∈ lefts.flatMap fun l => rights.map fun r => (l, r), NiceTerm p.1 ∧ NiceTerm p.2 ∧ DisjointLabels p.1 p.2 := by
    intro p hp
    obtain ⟨l, hl', hp⟩ := List.mem_flatMap.1 hp
    obtain ⟨r, hr', rfl⟩ := List.mem_map.1 hp
    exact ⟨hl l hl', hr r hr', hd l hl' r hr'⟩
  obtain ⟨a1, a2, a3⟩ := CommutatorsRun.fine hcanon hord hcpu (o := { o with expandHole := true }) hn scale hp
  refine ⟨?_, ?_, ?_⟩
  · rintro (h | ⟨all, e, h1, h⟩)
    · exact a1 h
    · exact combine_noRaise (fun t ht => (a3 all h1 t ht).1) ⟨e, h⟩
  · obtain ⟨all, ha⟩ := a2
    obtain ⟨out, h⟩ := combine_total fun t ht => (a3 all ha t ht).1
    exact ⟨out, all, ha, h⟩
  · rintro out ⟨all, ha, h⟩
    exact nice_combine (a3 all ha) h

/-! ### The expansions -/

theorem clusterOperators_nice {levels : List Nat} (hk : ∀ k ∈ levels, 1 ≤ k) {start : Nat} {unitary singleRef : Bool} {amps : List Term}
    (h : clusterOperators levels start unitary singleRef = .ok amps) : ∀ t ∈ amps, NiceTerm t := by
  have key : ∀ {excitation : Bool} {scale : ℚ} {l : List Term}, (levels.mapM fun k =>
      clusterOperator k start excitation ['T'] scale (holeSpace singleRef) (particleSpace singleRef) .spinOrbital) = .ok l → ∀ t ∈ l, NiceTerm t := by
    intro excitation scale l hl t ht
    obtain ⟨k, hkl, e⟩ := forall₂_mem_right (forall₂_of_mapM hl) ht
    exact ⟨(cluster_good e).1, cluster_live (hk k hkl) e⟩
  unfold clusterOperators at h
  simp only [bind, Except.bind] at h
  split at h
  · cases h
  · rename_i a ha
    split at h
    · split at h
      · cases h
      · rename_i b hb
        injection h with h
        subst h
        intro t ht
        rcases List.mem_append.1 ht with ht | ht
        · exact key ha t ht
        · exact key hb t ht
    · injection h with h
      subst h
      exact key ha

theorem cluster_total (k start : Nat) (excitation : Bool) (scale : ℚ) (singleRef : Bool) :
    ∃ t, clusterOperator k start excitation ['T'] scale (holeSpace singleRef) (particleSpace singleRef) .spinOrbital = .ok t := by
  have hb1 : (holeSpace singleRef).beta = false := by cases singleRef <;> rfl
  have hb2 : (particleSpace singleRef).beta = false := by cases singleRef <;> rfl
  obtain ⟨t, x, h1, -⟩ := C38_cluster k start excitation ['T'] scale (holeSpace singleRef) (particleSpace singleRef) .spinOrbital
    (hb1.trans hb2.symm) fun _ => hb1
  exact ⟨t, h1⟩

theorem clusterOperators_total (levels : List Nat) (start : Nat) (unitary singleRef : Bool) :
    ∃ amps, clusterOperators levels start unitary singleRef = .ok amps := by
  have key : ∀ (excitation : Bool) (scale : ℚ), ∃ l, (levels.mapM fun k =>
      clusterOperator k start excitation ['T'] scale (holeSpace singleRef) (particleSpace singleRef) .spinOrbital) = .ok l := by
    intro excitation scale
    obtain ⟨l, hl⟩ := exists_forall₂ (R := fun k t => clusterOperator k start excitation ['T'] scale (holeSpace singleRef) (particleSpace singleRef) .spinOrbital = .ok t)
      (l := levels) fun k _ => cluster_total k start excitation scale singleRef
    exact ⟨l, mapM_of_forall₂ hl⟩
  obtain ⟨a, ha⟩ := key true 1
  obtain ⟨b, hb⟩ := key false (-1)
  unfold clusterOperators
  rw [bind_ok_of ha]
  split_ifs
  · rw [bind_ok_of hb]; exact ⟨_, rfl⟩
  · exact ⟨_, rfl⟩

theorem BchLevels.fine {m : Machine} (hcanon : CanonContract m.canon) (hord : m.ord.Lawful) (hcpu : 1 ≤ m.cpus) {o : Options} (hn : 1 ≤ o.nProcess)
    {levels : List Nat} (hk : ∀ k ∈ levels, 1 ≤ k) {unitary singleRef : Bool} {maxLevel : Nat} (hmax : ∀ k ∈ levels, k ≤ maxLevel) :
    ∀ {limits : List (Int × Int × Int)} {i : Nat} {pool : List Term}, GoodList (i * (maxLevel * 2) + 4) pool → (∀ t ∈ pool, NiceTerm t) →
      (¬ BchLevelsRaise m o levels unitary singleRef (maxLevel * 2) i pool limits) ∧
      ∃ calls outs, BchLevels m o levels unitary singleRef (maxLevel * 2) i pool limits calls outs := by
  intro limits
  induction limits with
  | nil => intro i pool _ _; exact ⟨fun h => h, [], [], rfl, rfl⟩
  | cons x limits ih =>
    intro i pool hp hnice
    obtain ⟨maxCu, minOpen, maxOpen⟩ := x
    obtain ⟨amps, ha⟩ := clusterOperators_total levels (i * (maxLevel * 2) + 4) unitary singleRef
    have hpairs := level_pairs hmax hp ha
    have hampn := clusterOperators_nice hk ha
    obtain ⟨a1, a2, a3⟩ := CommutatorsRun.fine hcanon hord hcpu (o := { o with maxCu := maxCu, maxOpen := maxOpen, minOpen := minOpen }) hn
      (1 / ((i + 1 : Nat) : ℚ)) (pairs := pool.flatMap fun l => amps.map fun r => (l, r)) (by
        intro p hpm
        refine ⟨?_, ?_, (hpairs p hpm).2.2.1⟩
        · obtain ⟨l, hl, hpm⟩ := List.mem_flatMap.1 hpm
          obtain ⟨r, hr, rfl⟩ := List.mem_map.1 hpm
          exact hnice l hl
        · obtain ⟨l, hl, hpm⟩ := List.mem_flatMap.1 hpm
          obtain ⟨r, hr, rfl⟩ := List.mem_map.1 hpm
          exact hampn r hr)
    have e : i * (maxLevel * 2) + 4 + maxLevel * 2 = (i + 1) * (maxLevel * 2) + 4 := by ring
    have step : ∀ all copies out pool', CommutatorsRun m { o with maxCu := maxCu, maxOpen := maxOpen, minOpen := minOpen } (1 / ((i + 1 : Nat) : ℚ))
        (pool.flatMap fun l => amps.map fun r => (l, r)) all → (all.mapM fun t => t.fromTerm false false) = .ok copies →
        combineTerms copies = .ok out → (out.mapM fun t => t.fromTerm false false) = .ok pool' →
        GoodList ((i + 1) * (maxLevel * 2) + 4) pool' ∧ ∀ t ∈ pool', NiceTerm t := by
      intro all copies out pool' h2 h3 h4 h5
      have g1 := CommutatorsRun.good hcanon hord hpairs h2
      have g3 := ((g1.copies h3).combine h4).copies h5
      rw [e] at g3
      exact ⟨g3, copies_live (nice_combine (copies_live (a3 all h2) h3) h4) h5⟩
    refine ⟨?_, ?_⟩
    · rintro (h | ⟨amps', h1, h⟩)
      · exact not_error ha h
      rw [ha] at h1
      injection h1 with h1
      subst h1
      rcases h with h | ⟨all, h2, h | ⟨copies, h3, h | ⟨out, h4, h | ⟨pool', h5, h⟩⟩⟩⟩
      · exact a1 h
      · obtain ⟨c, hc⟩ := copies_total fun t ht => (a3 all h2 t ht).1
        exact not_error hc h
      · exact combine_noRaise (fun t ht => (copies_live (a3 all h2) h3 t ht).1) h
      · obtain ⟨c, hc⟩ := copies_total fun t ht => (nice_combine (copies_live (a3 all h2) h3) h4 t ht).1
        exact not_error hc h
      · obtain ⟨s1, s2⟩ := step all copies out pool' h2 h3 h4 h5
        exact (ih s1 s2).1 h
    · obtain ⟨all, h2⟩ := a2
      obtain ⟨copies, h3⟩ := copies_total fun t ht => (a3 all h2 t ht).1
      obtain ⟨out, h4⟩ := combine_total fun t ht => (copies_live (a3 all h2) h3 t ht).1
      obtain ⟨pool', h5⟩ := copies_total fun t ht => (nice_combine (copies_live (a3 all h2) h3) h4 t ht).1
      obtain ⟨s1, s2⟩ := step all copies out pool' h2 h3 h4 h5
      obtain ⟨-, calls, outs, h6⟩ := ih s1 s2
      exact ⟨_, _, amps, all, copies, out, pool', calls, outs, ha, h2, h3, h4, h5, h6, rfl, rfl⟩

theorem expandedHamiltonian_nice {ord : SetOrder} (hord : ord.Lawful) {k : Nat} (hk : 1 ≤ k) {out : List Term} (h : expandedHamiltonian ord k = .ok out) :
    ∀ r ∈ out, NiceTerm r := by
  unfold expandedHamiltonian at h
  simp only [bind, Except.bind] at h
  split at h
  · cases h
  · rename_i t ht
    split at h
    · cases h
    · rename_i rows hrows
      have hg := expand_good hord ht hrows
      have hl := expand_live hord hk ht hrows
      exact nice_combine (fun r hr => ⟨(hg r hr).1, hl r hr⟩) h

theorem bchStart_nice {ord : SetOrder} (hord : ord.Lawful) {start : List Term} (h : bchStart ord = .ok start) : ∀ r ∈ start, NiceTerm r := by
  unfold bchStart at h
  simp only [bind, Except.bind] at h
  split at h
  · cases h
  · rename_i a ha
    split at h
    · cases h
    · rename_i b hb
      injection h with h
      subst h
      intro r hr
      rcases List.mem_append.1 hr with hr | hr
      · exact expandedHamiltonian_nice hord (by omega) ha r hr
      · exact expandedHamiltonian_nice hord (by omega) hb r hr

theorem nestedFactors_live {singleRef : Bool} : ∀ (names : List OpName) (start : Nat), ∃ terms, nestedFactors singleRef start names = .ok terms ∧
    ((∀ x ∈ names, 1 ≤ x.bodies) → ∀ t ∈ terms, LiveTerm t) ∧ terms.length = names.length
  | [], _ => ⟨[], rfl, by simp, rfl⟩
  | .T k :: names, start => by
    obtain ⟨t, ht⟩ := cluster_total k start true 1 singleRef
    obtain ⟨ts, hts, hl, hlen⟩ := nestedFactors_live (singleRef := singleRef) names (start + k)
    refine ⟨t :: ts, by simp only [nestedFactors, ht, hts, bind, Except.bind]; rfl, ?_, by simp [hlen]⟩
    intro hb u hu
    rcases List.mem_cons.1 hu with rfl | hu
    · exact cluster_live (hb (.T k) (by simp)) ht
    · exact hl (fun x hx => hb x (by simp [hx])) u hu
  | .X k :: names, start => by
    obtain ⟨t, ht⟩ := cluster_total k start false 1 singleRef
    obtain ⟨ts, hts, hl, hlen⟩ := nestedFactors_live (singleRef := singleRef) names (start + k)
    refine ⟨t :: ts, by simp only [nestedFactors, ht, hts, bind, Except.bind]; rfl, ?_, by simp [hlen]⟩
    intro hb u hu
    rcases List.mem_cons.1 hu with rfl | hu
    · exact cluster_live (hb (.X k) (by simp)) ht
    · exact hl (fun x hx => hb x (by simp [hx])) u hu
  | .H k :: names, start => by
    obtain ⟨t, x, ht, -⟩ := C38_hamiltonian k 0 .spinOrbital
    obtain ⟨ts, hts, hl, hlen⟩ := nestedFactors_live (singleRef := singleRef) names start
    refine ⟨t :: ts, by simp only [nestedFactors, ht, hts, bind, Except.bind]; rfl, ?_, by simp [hlen]⟩
    intro hb u hu
    rcases List.mem_cons.1 hu with rfl | hu
    · exact hamiltonian_live (hb (.H k) (by simp)) ht
    · exact hl (fun x hx => hb x (by simp [hx])) u hu

theorem NestedLoop.fine {m : Machine} (hcanon : CanonContract m.canon) (hord : m.ord.Lawful) (hcpu : 1 ≤ m.cpus) {o : Options} (hn : 1 ≤ o.nProcess)
    {singleRef : Bool} {scale : ℚ} : ∀ {e : List (ℤ × List OpName)},
    (∀ p ∈ e, p.2 ≠ [] ∧ p.2.countP OpName.isH ≤ 1 ∧ ∀ x ∈ p.2, 1 ≤ x.bodies) →
    (¬ NestedLoopRaises m o singleRef scale e) ∧ (∃ calls out, NestedLoop m o singleRef scale e calls out) ∧
      ∀ calls out, NestedLoop m o singleRef scale e calls out → ∀ t ∈ out, NiceTerm t := by
  intro e
  induction e with
  | nil =>
    intro _
    refine ⟨fun h => h, ⟨[], [], rfl, rfl⟩, ?_⟩
    rintro calls out ⟨rfl, rfl⟩
    simp
  | cons p e ih =>
    intro h
    obtain ⟨c, names⟩ := p
    obtain ⟨h1, h2, h3⟩ := h (c, names) (by simp)
    obtain ⟨terms, ht, hl, hlen⟩ := nestedFactors_live (singleRef := singleRef) names 0
    obtain ⟨g1, g2, -⟩ := nestedFactors_good h2 ht
    have hne : terms ≠ [] := by
      intro e
      rw [e] at hlen
      exact h1 (List.length_eq_zero_iff.1 hlen.symm)
    obtain ⟨a1, a2, a3⟩ := ContractRun.fine hcanon hord hcpu hn hne (fun t ht => ⟨g1 t ht, hl h3 t ht⟩) g2 (scale * c)
    obtain ⟨b1, b2, b3⟩ := ih fun q hq => h q (by simp [hq])
    refine ⟨?_, ?_, ?_⟩
    · rintro (h | ⟨terms', ht', h⟩)
      · exact not_error ht h
      rw [ht] at ht'
      injection ht' with ht'
      subst ht'
      rcases h with h | ⟨-, -, h⟩
      · exact a1 h
      · exact b1 h
    · obtain ⟨o1, h1⟩ := a2
      obtain ⟨calls, o2, h2⟩ := b2
      exact ⟨_, _, terms, o1, calls, o2, ht, h1, h2, rfl, rfl⟩
    · rintro calls out ⟨terms', o1, calls', o2, ht', h1, h2, rfl, rfl⟩ t hmem
      rw [ht] at ht'
      injection ht' with ht'
      subst ht'
      rcases List.mem_append.1 hmem with hmem | hmem
      · exact a3 o1 h1 t hmem
      · exact b3 calls' o2 h2 t hmem

end Dsrg
