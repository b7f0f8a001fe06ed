import Verif.Lemmas.NoRaise
import Verif.Lemmas.Buckets
import Verif.Lemmas.Singlet
import Verif.Spec.ForteCode
import Verif.Spec.Library

/-!
No label occurs twice in one factor of the terms that contractions and commutators return.
-/

namespace Dsrg

/-- A term made by the constructor in which no label occurs twice in one factor. -/
def Distinct (t : Term) : Prop := (∃ ts op c, Term.make ts op c = .ok t) ∧ ∀ x ∈ t.tensors, x.pair.indices.Nodup

theorem Distinct.coeff {t : Term} (h : Distinct t) (c : ℚ) : Distinct { t with coeff := c } := by
  obtain ⟨⟨ts, op, c₀, ht⟩, hn⟩ := h
  obtain ⟨h1, h2, h3, rfl⟩ := Term.make_ok.1 ht
  exact ⟨⟨ts, op, c, Term.make_ok.2 ⟨h1, h2, h3, rfl⟩⟩, hn⟩

theorem Distinct.of_make {ts : List Tensor} {op : SqOp} {c : ℚ} {t : Term} (h : Term.make ts op c = .ok t) (hn : ∀ x ∈ ts, x.pair.indices.Nodup) :
    Distinct t := by
  refine ⟨⟨ts, op, c, h⟩, ?_⟩
  obtain ⟨-, -, -, rfl⟩ := Term.make_ok.1 h
  intro x hx
  exact hn x ((sortTensors_perm ts).mem_iff.1 hx)

/-! ### Properties of terms that do not depend on the coefficient -/

theorem combine_all {P : Term → Prop} (hP : ∀ t c, P t → P { t with coeff := c }) {l out : List Term} (h : ∀ t ∈ l, P t)
    (hc : combineTerms l = .ok out) : ∀ t ∈ out, P t := by
  intro t ht
  obtain ⟨hp, -⟩ := sortTerms_ok hc
  obtain ⟨ht, -⟩ := List.mem_filter.1 (hp.mem_iff.1 ht)
  obtain ⟨e, he, rfl⟩ := List.mem_map.1 ht
  exact hP _ _ (h _ ((lastTerms_spec l).2.2 e he).1)

theorem BatchRun.all {P : Term → Prop} (hP : ∀ t c, P t → P { t with coeff := c }) {m : Machine} {n : Nat} {rows : List Row} {tensors : List Tensor}
    {c : ℚ} {simplify hermitian : Bool} {out : List Term} (h : ∀ row ∈ rows, ∀ r, canonicalizeRow m tensors c hermitian row = .ok r → P r)
    (hr : BatchRun m n rows tensors c simplify hermitian out) : ∀ t ∈ out, P t := by
  unfold BatchRun at hr
  split_ifs at hr with h0 h1 h2 h2
  · subst hr; simp
  all_goals
    obtain ⟨results, temp, hm, ht, hc⟩ := hr
    have hres : ∀ t ∈ results, P t := by
      intro t ht
      obtain ⟨row, hrow, e⟩ := forall₂_mem_right (forall₂_of_mapM hm) ht
      exact h row hrow t e
    have htemp : ∀ t ∈ temp, P t := by
      first
        | subst ht; exact hres
        | intro t h; exact hres t (ht.mem_iff.1 h)
    first
      | subst hc; exact htemp
      | exact combine_all hP htemp hc

theorem LoopRun.all {P : Term → Prop} (hP : ∀ t c, P t → P { t with coeff := c }) {m : Machine} {o : Options} {n : Nat} {tensors : List Tensor}
    {c : ℚ} : ∀ {batches : List (List Row)} {pending : List Row} {out : List Term},
    (∀ row ∈ pending ++ batches.flatten, ∀ r, canonicalizeRow m tensors c o.hermitian row = .ok r → P r) →
      LoopRun m o n tensors c pending batches out → ∀ t ∈ out, P t := by
  intro batches
  induction batches with
  | nil => intro pending out h hr; exact BatchRun.all hP (by simpa using h) hr
  | cons b bs ih =>
    intro pending out h hr
    unfold LoopRun at hr
    rw [List.flatten_cons, ← List.append_assoc] at h
    split_ifs at hr with hlt
    · exact ih h hr
    · obtain ⟨o1, o2, h1, h2, rfl⟩ := hr
      intro t ht
      rcases List.mem_append.1 ht with ht | ht
      · exact BatchRun.all hP (fun row hrow => h row (List.mem_append_left _ hrow)) h1 t ht
      · exact ih (pending := []) (fun row hrow => h row (List.mem_append_right _ (by simpa using hrow))) h2 t ht

/-- A property of the terms of all rows is one of the terms returned. -/
theorem ContractRun.all {P : Term → Prop} (hP : ∀ t c, P t → P { t with coeff := c }) {m : Machine} {o : Options} {terms : List Term}
    (h : ∀ t ∈ terms, GoodTerm t) (hd : terms.Pairwise DisjointLabels) {scale : ℚ}
    (h1 : ∀ op c t, Term.make (productTensors terms) op c = .ok t → P t)
    (h2 : ∀ c row k r, Allowed (productOps terms) o.maxCu o.maxOpen o.minOpen c → row ∈ resultRows (productOps terms) o.expandHole c →
      canonicalizeRow m (productTensors terms) k o.hermitian row = .ok r → P r) {out : List Term}
    (hr : ContractRun m o terms scale out) : ∀ t ∈ out, P t := by
  match terms, hr with
  | first :: rest, hr =>
    unfold ContractRun at hr
    simp only at hr
    split_ifs at hr with hlt
    · obtain ⟨t, ht, rfl⟩ := hr
      intro u hu
      obtain rfl : u = t := by simpa using hu
      exact h1 _ _ _ ht
    · obtain ⟨batches, all, hb, ha, hc⟩ := hr
      have ho := ordinary_of_good h hd
      obtain ⟨cs, -, -, hall, hperm⟩ := contractions_spec (goodOps_productOps ho.ops) hb
      refine combine_all hP (LoopRun.all hP ?_ ha) hc
      intro row hrow r hrr
      rw [List.nil_append] at hrow
      obtain ⟨c, hcm, hrc⟩ := List.mem_flatMap.1 (hperm.mem_iff.1 hrow)
      exact h2 c row _ r (hall c hcm) hrc hrr

theorem CommutatorRun.all {P : Term → Prop} (hP : ∀ t c, P t → P { t with coeff := c }) {m : Machine} {o : Options} {a b : Term} {scale : ℚ}
    (h1 : ∀ out, ContractRun m o [a, b] scale out → ∀ t ∈ out, P t) (h2 : ∀ out, ContractRun m o [b, a] (-scale) out → ∀ t ∈ out, P t)
    {out : List Term} (hr : CommutatorRun m o a b scale out) : ∀ t ∈ out, P t := by
  unfold CommutatorRun at hr
  split_ifs at hr with h0
  · subst hr; simp
  · obtain ⟨o1, o2, r1, r2, hc⟩ := hr
    refine combine_all hP ?_ hc
    intro t ht
    rcases List.mem_append.1 ht with ht | ht
    · exact h1 _ r1 t ht
    · exact h2 _ r2 t ht

/-! ### Labels of one factor stay distinct -/

/-- The factors of a row have the labels of the contractions. -/
theorem row_pairs {ops : List SqOp} {expand : Bool} {c : List Tensor} : ∀ row ∈ resultRows ops expand c, ∀ d ∈ row.2.1,
    ∃ z ∈ c, d.pair = z.pair ∧ (d = z ∨ z.cls = .hole ∧ d ∈ z.expandHole) ∧ (expand = true → d.cls ≠ .hole) := by
  intro row hrow d hd
  unfold resultRows at hrow
  obtain ⟨r, hr, rfl⟩ := List.mem_map.1 hrow
  cases expand with
  | false =>
    simp only [Bool.false_eq_true, if_false, List.mem_singleton] at hr
    subst hr; exact ⟨d, hd, rfl, Or.inl rfl, by simp⟩
  | true =>
    rw [if_pos rfl] at hr
    unfold expandHoleDensities at hr
    simp only at hr
    split at hr
    · rename_i h0
      rw [List.mem_singleton] at hr
      subst hr
      refine ⟨d, hd, rfl, Or.inl rfl, fun _ hc => ?_⟩
      simp only [splitHoles, List.length_map] at h0
      have : d ∈ c.filter fun t => decide (t.cls = .hole) := List.mem_filter.2 ⟨hd, by simpa using hc⟩
      rw [List.length_eq_zero_iff] at h0
      rw [h0] at this
      simp at this
    · rw [List.mem_map] at hr
      obtain ⟨l, hl, rfl⟩ := hr
      rw [mem_pyProduct] at hl
      simp only [splitHoles] at hl hd
      rcases List.mem_append.1 hd with hd | hd
      · obtain ⟨h1, h2⟩ := List.mem_filter.1 hd
        exact ⟨d, h1, rfl, Or.inl rfl, fun _ => by simpa using h2⟩
      · obtain ⟨p, hp, hdp⟩ := forall₂_mem_left hl hd
        obtain ⟨t, ht, rfl⟩ := List.mem_map.1 hp
        obtain ⟨h1, h2⟩ := List.mem_filter.1 ht
        refine ⟨t, h1, ?_, Or.inr ⟨by simpa using h2, hdp⟩, fun _ => ?_⟩
        all_goals
          unfold Tensor.expandHole at hdp
          split at hdp
          · rw [List.mem_singleton] at hdp
            subst hdp
            first | rfl | exact fun h => nomatch h
          · simp only [List.mem_cons, List.not_mem_nil, or_false] at hdp
            rcases hdp with rfl | rfl <;> first | rfl | exact fun h => nomatch h

theorem same_string {ops : List SqOp} {f : SqOp → List Index} (hn : (ops.flatMap f).Nodup) {i j : Nat} (hij : i < j) {a b : SqOp}
    (hi : ops[i]? = some a) (hj : ops[j]? = some b) {u : Index} (hu : u ∈ f a) : u ∉ f b := by
  obtain ⟨li, rfl⟩ := List.getElem?_eq_some_iff.1 hi
  obtain ⟨lj, rfl⟩ := List.getElem?_eq_some_iff.1 hj
  have := (List.pairwise_iff_getElem.1 (List.nodup_flatMap.1 hn).2) i j li lj hij
  exact fun h => this hu h

/-- Two labels of a factor of the product are not merged by the contraction. -/
theorem row_distinct {terms : List Term} (h : ∀ t ∈ terms, GoodTerm t) (hd : terms.Pairwise DisjointLabels) {maxCu maxOpen minOpen : Int}
    {expand : Bool} {c : List Tensor} (hA : Allowed (productOps terms) maxCu maxOpen minOpen c) {row : Row}
    (hrow : row ∈ resultRows (productOps terms) expand c) {x : Tensor} (hx : x ∈ productTensors terms) {i j : Index} (hi : i ∈ x.pair.indices)
    (hj : j ∈ x.pair.indices) (hm : Merged (productTensors terms ++ row.2.1) i j) : i = j := by
  have hG := goodOps_productOps (ordinary_of_good h hd).ops
  rcases hm with hm | ⟨y, hy, hdelta, hiy, hjy⟩
  · exact hm
  by_contra hne
  have hyrow : y ∈ row.2.1 := by
    rcases List.mem_append.1 hy with hy | hy
    · obtain ⟨t, ht, hy⟩ := List.mem_flatMap.1 hy
      exact absurd hdelta ((h t ht).tidy.noDelta y hy)
    · exact hy
  obtain ⟨z, hz, hp, -⟩ := row_pairs row hrow y hyrow
  have hone : y.upper.list.length = 1 := by
    rcases hdelta with hk | ⟨-, -, u, l, hu, -⟩
    · exact (fine_row hG hA row hrow y hyrow).1.one (Or.inr hk)
    · rw [hu]; rfl
  obtain ⟨t, ht, hxt⟩ := List.mem_flatMap.1 hx
  have hsub : ∀ op ∈ productOps terms, ∃ t ∈ terms, t.sqOp = op := fun op hop => List.mem_map.1 (List.mem_filter.1 hop).1
  have key : ∀ (u l : Index) (a b : Nat), a < b ∨ b < a → ∀ A B : SqOp, (productOps terms)[a]? = some A → (productOps terms)[b]? = some B → u ∈ A.upper.list → l ∈ B.lower.list →
      u ∈ x.pair.indices → l ∈ x.pair.indices → False := by
    intro u l a b hab A B hA hB hu hl hux hlx
    obtain ⟨t1, ht1, rfl⟩ := hsub A (List.mem_of_getElem? hA)
    obtain ⟨t2, ht2, rfl⟩ := hsub B (List.mem_of_getElem? hB)
    obtain rfl := apart_eq hd ht ht1 (labels_of_tensor hxt hux) (labels_of_op (List.mem_append_left _ hu))
    obtain rfl := apart_eq hd ht ht2 (labels_of_tensor hxt hlx) (labels_of_op (List.mem_append_right _ hl))
    rcases hab with hab | hab
    · exact same_string hG.upper hab hA hB hu hu
    · exact same_string hG.upper hab hB hA hu hu
  have hpair : ∀ u l, y.pair.indices = [u, l] → (u ∈ x.pair.indices ∧ l ∈ x.pair.indices) := by
    intro u l e
    rw [e] at hiy hjy
    simp only [List.mem_cons, List.not_mem_nil, or_false] at hiy hjy
    rcases hiy with rfl | rfl <;> rcases hjy with rfl | rfl
    · exact absurd rfl hne
    · exact ⟨hi, hj⟩
    · exact ⟨hj, hi⟩
    · exact absurd rfl hne
  obtain ⟨k, hk | hk⟩ := hA.elementary z hz
  · obtain ⟨a, b, left, right, hab, ha, hb, hk⟩ := hk
    rcases hk with ⟨u, hu, l, hl, -, -, rfl⟩ | ⟨l, hl, u, hu, -, -, rfl⟩
    · obtain ⟨e1, e2⟩ := hpair u l (by rw [hp]; rfl)
      exact key u l a b (Or.inl hab) _ _ ha hb hu hl e1 e2
    · obtain ⟨e1, e2⟩ := hpair u l (by rw [hp]; rfl)
      exact key u l b a (Or.inr hab) _ _ hb ha hu hl e1 e2
  · obtain ⟨cre, ann, -, -, -, h2, -, -, -, rfl⟩ := hk
    have : y.upper.list.length = cre.length := by
      show y.pair.upper.list.length = _
      rw [hp]; simp [density]
    omega

/-- `canonicalize_sympy` returns what a constructor makes. -/
theorem Term.canonicalizeSympy_made {canon : SympyCanon} {ord : SetOrder} {t r : Term} {core removeActive hermitian : Bool}
    (hr : t.canonicalizeSympy canon ord core removeActive hermitian = .ok r) : ∃ ts op c, Term.make ts op c = .ok r := by
  unfold Term.canonicalizeSympy at hr
  obtain ⟨s, -, hr⟩ := bind_ok hr
  split_ifs at hr with hv
  · exact ⟨_, _, _, hr⟩
  · obtain ⟨names, -, hr⟩ := bind_ok hr
    obtain ⟨v, -, hr⟩ := bind_ok hr
    split_ifs at hr with hp
    split at hr
    · cases hr
    · obtain ⟨op, -, hr⟩ := bind_ok hr
      obtain ⟨ts, -, hr⟩ := bind_ok hr
      exact ⟨_, _, _, hr⟩

theorem canonicalizeRow_distinct {m : Machine} (hcanon : CanonContract m.canon) (hord : m.ord.Lawful) {terms : List Term}
    (h : ∀ t ∈ terms, GoodTerm t) (hdis : ∀ t ∈ terms, ∀ x ∈ t.tensors, x.pair.indices.Nodup)
    (hd : terms.Pairwise DisjointLabels) {maxCu maxOpen minOpen : Int}
    {expand : Bool} {c : List Tensor} (hA : Allowed (productOps terms) maxCu maxOpen minOpen c) {row : Row}
    (hrow : row ∈ resultRows (productOps terms) expand c) {k : ℚ} {hermitian : Bool} {r : Term}
    (hr : canonicalizeRow m (productTensors terms) k hermitian row = .ok r) : Distinct r := by
  have hof := ordinary_of_good h hd
  have hk := contractible_of_good h hd
  have hden := resultRows_density hA row hrow
  unfold canonicalizeRow at hr
  obtain ⟨t, ht, hr⟩ := bind_ok hr
  refine ⟨Term.canonicalizeSympy_made hr, ?_⟩
  have hw := Term.wf_of_make ht
  obtain ⟨-, -, -, rfl⟩ := Term.make_ok.1 ht
  have hp0 := row_paired h hd hA hrow
  have hp := hp0.perm (sortTensors_perm (productTensors terms ++ row.2.1)).symm
  have hkind : ∀ x ∈ productTensors terms ++ row.2.1, UsualKind x := by
    intro x hx
    rcases List.mem_append.1 hx with hx | hx
    · obtain ⟨t, ht, hx⟩ := List.mem_flatMap.1 hx
      exact (h t ht).kind x hx
    · exact Or.inl ⟨(hden x hx).cls, (hden x hx).name, (hden x hx).priority⟩
  obtain ⟨-, -, h3⟩ := Term.canonicalizeSympy_tidy hcanon hord hw (by
      ext i
      simp only [mem_diagonalOf, (sortTensors_perm _).mem_iff]) hp (row_balanced hof hk hA hrow)
    (fun x hx y hy e => ((hkind x ((sortTensors_perm _).mem_iff.1 hx)).consistent (hkind y ((sortTensors_perm _).mem_iff.1 hy)) e).1) hr
  refine h3 ?_ ?_
  · intro x hx
    rcases List.mem_append.1 ((sortTensors_perm _).mem_iff.1 hx) with hx | hx
    · obtain ⟨t, ht, hx⟩ := List.mem_flatMap.1 hx
      exact hdis t ht x hx
    · have hx' : x ∈ (productTensors terms ++ row.2.1).filter Tensor.isDensity :=
        List.mem_filter.2 ⟨List.mem_append_right _ hx, (hden x hx).isDensity⟩
      have := (List.nodup_append.1 hp0.outer).2.1
      exact (List.nodup_flatMap.1 this).1 x hx'
  · intro x hx hnd i hi j hj hm
    rcases List.mem_append.1 ((sortTensors_perm _).mem_iff.1 hx) with hx | hx
    · refine row_distinct h hd hA hrow hx hi hj ?_
      rcases hm with hm | ⟨y, hy, hm⟩
      · exact Or.inl hm
      · exact Or.inr ⟨y, (sortTensors_perm _).mem_iff.1 hy, hm⟩
    · rw [(hden x hx).isDensity] at hnd; cases hnd

theorem ContractRun.distinct {m : Machine} (hcanon : CanonContract m.canon) (hord : m.ord.Lawful) {o : Options} {terms : List Term}
    (h : ∀ t ∈ terms, GoodTerm t) (hdis : ∀ t ∈ terms, ∀ x ∈ t.tensors, x.pair.indices.Nodup) (hd : terms.Pairwise DisjointLabels) {scale : ℚ}
    {out : List Term} (hr : ContractRun m o terms scale out) : ∀ t ∈ out, Distinct t := by
  refine ContractRun.all (fun t c ht => ht.coeff c) h hd ?_ ?_ hr
  · intro op c t ht
    refine Distinct.of_make ht fun x hx => ?_
    obtain ⟨t, ht, hx⟩ := List.mem_flatMap.1 hx
    exact hdis t ht x hx
  · intro c row k r hA hrow hr
    exact canonicalizeRow_distinct hcanon hord h hdis hd hA hrow hr

theorem CommutatorRun.distinct {m : Machine} (hcanon : CanonContract m.canon) (hord : m.ord.Lawful) {o : Options} {a b : Term}
    (ha : GoodTerm a) (hb : GoodTerm b) (hda : ∀ x ∈ a.tensors, x.pair.indices.Nodup) (hdb : ∀ x ∈ b.tensors, x.pair.indices.Nodup)
    (hd : DisjointLabels a b) {scale : ℚ} {out : List Term} (hr : CommutatorRun m o a b scale out) : ∀ t ∈ out, Distinct t := by
  refine CommutatorRun.all (fun t c ht => ht.coeff c) ?_ ?_ hr
  · intro out h
    exact ContractRun.distinct hcanon hord (by simpa using ⟨ha, hb⟩) (by simpa using ⟨hda, hdb⟩) (by simpa using hd) h
  · intro out h
    exact ContractRun.distinct hcanon hord (by simpa using ⟨hb, ha⟩) (by simpa using ⟨hdb, hda⟩) (List.pairwise_pair.2 (Disjoint.symm hd)) h

/-! ### Terms of the library -/

theorem GoodTerm.single_distinct {t : Term} (g : GoodTerm t) {x : Tensor} (ht : t.tensors = [x])
    (hop : (t.sqOp.upper = x.lower ∧ t.sqOp.lower = x.upper) ∨ (t.sqOp.upper = x.upper ∧ t.sqOp.lower = x.lower)) :
    ∀ y ∈ t.tensors, y.pair.indices.Nodup := by
  intro y hy
  rw [ht, List.mem_singleton] at hy
  subst hy
  have h1 : (t.sqOp.upper.list ++ t.sqOp.lower.list).Nodup := (List.nodup_append.1 g.tidy.outer).1
  show (y.upper.list ++ y.lower.list).Nodup
  rcases hop with ⟨e1, e2⟩ | ⟨e1, e2⟩
  · rw [e1, e2] at h1; exact List.perm_append_comm.nodup_iff.1 h1
  · rw [e1, e2] at h1; exact h1

theorem hamiltonian_made_from {k start : Nat} {ty : IType} {t : Term} (h : hamiltonianOperator k start ty = .ok t) : ∃ ts op c, Term.make ts op c = .ok t := by
  unfold hamiltonianOperator at h
  simp only [bind, Except.bind] at h
  repeat' split at h
  all_goals first | cases h | exact ⟨_, _, _, h⟩

theorem cluster_made {k start : Nat} {excitation : Bool} {name : PyStr} {scale : ℚ} {a b : Space} {ty : IType} {t : Term}
    (h : clusterOperator k start excitation name scale a b ty = .ok t) : ∃ ts op c, Term.make ts op c = .ok t := by
  unfold clusterOperator at h
  simp only [bind, Except.bind] at h
  repeat' split at h
  all_goals first | cases h | exact ⟨_, _, _, h⟩

theorem expand_made {ord : SetOrder} {t : Term} {singleRef : Bool} {start : Nat} {rows : List Term}
    (h : t.expandCompositeIndices ord singleRef start = .ok rows) : ∀ r ∈ rows, ∃ ts op c, Term.make ts op c = .ok r := by
  unfold Term.expandCompositeIndices Term.makeDdca at h
  obtain ⟨os, hos, h⟩ := bind_ok h
  injection h with h
  subst h
  intro r hr
  obtain ⟨x, hx, e⟩ := List.mem_filterMap.1 hr
  obtain rfl : x = some r := e
  obtain ⟨spaces, -, hs⟩ := forall₂_mem_right (forall₂_of_mapM hos) hx
  split_ifs at hs with h1 h2
  · cases hs
  · cases hs
  · obtain ⟨op, -, hs⟩ := bind_ok hs
    obtain ⟨ts, -, hs⟩ := bind_ok hs
    obtain ⟨r', hr', hs⟩ := bind_ok hs
    injection hs with hs
    injection hs with hs
    subst hs
    exact ⟨_, _, _, hr'⟩

theorem cluster_distinct {k start : Nat} {excitation : Bool} {scale : ℚ} {singleRef : Bool} {t : Term}
    (h : clusterOperator k start excitation ['T'] scale (holeSpace singleRef) (particleSpace singleRef) .spinOrbital = .ok t) : Distinct t := by
  refine ⟨cluster_made h, ?_⟩
  have g := (cluster_good h).1
  have hb1 : (holeSpace singleRef).beta = false := by cases singleRef <;> rfl
  have hb2 : (particleSpace singleRef).beta = false := by cases singleRef <;> rfl
  obtain ⟨t', x, h1, h2, -, -, -, -, h7, h8, -⟩ := C38_cluster k start excitation ['T'] scale (holeSpace singleRef) (particleSpace singleRef) .spinOrbital
    (hb1.trans hb2.symm) fun _ => hb1
  rw [h] at h1
  injection h1 with h1
  subst h1
  refine g.single_distinct h2 ?_
  cases excitation
  · exact Or.inr ⟨h7, h8⟩
  · exact Or.inl ⟨h7, h8⟩

theorem hamiltonian_distinct {k start : Nat} {t : Term} (h : hamiltonianOperator k start .spinOrbital = .ok t) : Distinct t := by
  refine ⟨hamiltonian_made_from h, ?_⟩
  have g := (hamiltonian_good_from h).1
  obtain ⟨t', x, h1, h2, -, -, -, -, h7, h8, -⟩ := C38_hamiltonian k start .spinOrbital
  rw [h] at h1
  injection h1 with h1
  subst h1
  exact g.single_distinct h2 (Or.inl ⟨h7, h8⟩)

theorem expandedHamiltonian_distinct {ord : SetOrder} (hord : ord.Lawful) {k : Nat} {out : List Term} (h : expandedHamiltonian ord k = .ok out) :
    ∀ r ∈ out, Distinct r ∧ ∀ x ∈ r.tensors, x.cls = .hamiltonian := by
  unfold expandedHamiltonian at h
  obtain ⟨t, ht, h⟩ := bind_ok h
  obtain ⟨rows, hrows, h⟩ := bind_ok h
  refine combine_all (fun t c h => ⟨h.1.coeff c, h.2⟩) ?_ h
  intro r hr
  obtain ⟨g, -, -, -, x, e1, e2, -, e3, e4⟩ := expand_good hord ht hrows r hr
  exact ⟨⟨expand_made hrows r hr, g.single_distinct e1 (Or.inl ⟨e3, e4⟩)⟩, by rw [e1]; simpa using e2⟩

/-! ### Programs can be written -/

theorem diagonal_empty {ts : List Tensor} {op : SqOp} (h1 : (op.upper.list ++ op.lower.list).Nodup) (h2 : ∀ x ∈ ts, x.pair.indices.Nodup) :
    diagonalOf ts op = ∅ := by
  rw [Finset.eq_empty_iff_forall_notMem]
  intro i hi
  rw [mem_diagonalOf] at hi
  rcases hi with hi | ⟨x, hx, hi⟩
  · exact (List.nodup_append.1 h1).2.2 i hi.1 i hi.2 rfl
  · exact (List.nodup_append.1 (h2 x hx)).2.2 i hi.1 i hi.2 rfl

theorem printable_of_nice {t : Term} (h : NiceTerm t) (hd : Distinct t) : Printable t := by
  obtain ⟨⟨ts, op, c, ht⟩, hn⟩ := hd
  have h0 := ht
  obtain ⟨-, -, -, rfl⟩ := Term.make_ok.1 h0
  have hp := sortTensors_perm ts
  have hso : SoundTerm (sortTensors ts) op := h.2.sound
  have hsp : SpinOrbitalOp op := h.1.op
  refine ⟨ts, op, c, ht, ?_, ?_, ?_, ?_, h.1.bal⟩
  · refine ⟨(Indices.wf_iff_make _).1 hsp.2.2.1, (Indices.wf_iff_make _).1 hsp.2.2.2, ?_⟩
    unfold IndicesPair.make
    rw [if_neg (by rw [hsp.1, hsp.2.1]; simp)]
  · intro x hx
    have hx' := hp.mem_iff.2 hx
    have hb : ∀ i ∈ x.pair.indices, i.isBeta = false := fun i hi => hso.beta rfl i (mem_labelList.2 (Or.inr ⟨x, hx', hi⟩))
    have hnd := List.nodup_append.1 (hn x hx')
    exact ⟨(Indices.wf_iff_make _).1 ⟨hnd.1, fun _ i hi => hb i (List.mem_append_left _ hi)⟩,
      (Indices.wf_iff_make _).1 ⟨hnd.2.1, fun _ i hi => hb i (List.mem_append_right _ hi)⟩, (hso.tensor x hx').make fun _ => hb⟩
  · rw [hsp.1]; rfl
  · exact diagonal_empty (List.nodup_append.1 h.1.tidy.outer).1 fun x hx => hn x (hp.mem_iff.2 hx)

end Dsrg
