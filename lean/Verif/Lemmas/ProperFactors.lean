import Verif.Lemmas.Linked
import Verif.Spec.ProperFactors

/-!
The proper factors of the results of contractions.
-/

namespace Dsrg

/-- Whether a factor is neither density nor delta. -/
def Tensor.proper (x : Tensor) : Bool := decide (x.cls ≠ .cumulant ∧ x.cls ≠ .hole ∧ x.cls ≠ .kronecker)

/-- What `properFactors` records of a factor. -/
def Tensor.sort (x : Tensor) : TCls × PyStr × Nat := (x.cls, x.name, x.upper.list.length + x.lower.list.length)

theorem properFactors_eq (ts : List Tensor) : properFactors ts = ((ts.filter Tensor.proper).map Tensor.sort : List _) := rfl

theorem properFactors_append (a b : List Tensor) : properFactors (a ++ b) = properFactors a + properFactors b := by
  simp only [properFactors_eq, List.filter_append, List.map_append, Multiset.coe_add]

theorem properFactors_perm {a b : List Tensor} (h : a.Perm b) : properFactors a = properFactors b := by
  rw [properFactors_eq, properFactors_eq, Multiset.coe_eq_coe]
  exact (h.filter _).map _

theorem properFactors_map {f : Tensor → Tensor} {ts : List Tensor} (h : ∀ x ∈ ts, (f x).sort = x.sort) : properFactors (ts.map f) = properFactors ts := by
  induction ts with
  | nil => rfl
  | cons x ts ih =>
    have hx := h x (by simp)
    have hp : (f x).proper = x.proper := by
      have : (f x).cls = x.cls := (Prod.ext_iff.1 hx).1
      unfold Tensor.proper
      rw [this]
    have ih := ih fun y hy => h y (by simp [hy])
    rw [properFactors_eq, properFactors_eq, Multiset.coe_eq_coe] at ih ⊢
    rw [List.map_cons, List.filter_cons, List.filter_cons, hp]
    split_ifs
    · rw [List.map_cons, List.map_cons, hx]
      exact ih.cons _
    · exact ih

theorem properFactors_replace {ts₁ ts₂ : List Tensor} {x y : Tensor} (h : y.sort = x.sort) :
    properFactors (ts₁ ++ y :: ts₂) = properFactors (ts₁ ++ x :: ts₂) := by
  rw [properFactors_append, properFactors_append]
  have : properFactors ([x].map (fun _ => y) ++ ts₂) = properFactors ([x] ++ ts₂) := by
    rw [properFactors_append, properFactors_append, properFactors_map]
    simpa using h
  exact congrArg _ this

theorem properFactors_densities {ts : List Tensor} (h : ∀ x ∈ ts, x.cls = .cumulant ∨ x.cls = .hole ∨ x.cls = .kronecker) : properFactors ts = 0 := by
  rw [properFactors_eq, List.filter_eq_nil_iff.2]
  · rfl
  · intro x hx
    rcases h x hx with e | e | e <;> simp [Tensor.proper, e]

theorem properFactors_flatMap (terms : List Term) : properFactors (terms.flatMap Term.tensors) = (terms.map fun t => properFactors t.tensors).sum := by
  induction terms with
  | nil => rfl
  | cons t terms ih => rw [List.flatMap_cons, properFactors_append, ih, List.map_cons, List.sum_cons]

theorem Rewrites.properFactors {hermitian : Bool} {c c' : ℚ} {ts ts' : List Tensor} {op op' : SqOp} (h : Rewrites hermitian c ts op c' ts' op') :
    properFactors ts' = properFactors ts := by
  cases h with
  | rename _ _ f h1 h2 =>
    refine properFactors_map fun x _ => ?_
    simp [Tensor.sort, Tensor.withLabels, Tensor.upper, Tensor.lower]
  | reorder _ _ _ hp => exact (properFactors_perm hp).symm
  | upper ts₁ ts₂ x _ l₁ l₂ i j e =>
    refine properFactors_replace ?_
    simp [Tensor.sort, e]
    simp [Tensor.withLabels]
  | lower ts₁ ts₂ x _ l₁ l₂ i j e =>
    refine properFactors_replace ?_
    simp [Tensor.sort, e]
    simp [Tensor.withLabels]
  | adjoint ts₁ ts₂ x _ e =>
    refine properFactors_replace ?_
    simp [Tensor.sort, Tensor.withLabels]
    omega
  | opUpper => rfl
  | opLower => rfl

theorem SameUpToNotation.properFactors {hermitian : Bool} {c c' : ℚ} {ts ts' : List Tensor} {op op' : SqOp}
    (h : SameUpToNotation hermitian c ts op c' ts' op') : properFactors ts' = properFactors ts := by
  unfold SameUpToNotation at h
  have key : ∀ p : ℚ × List Tensor × SqOp, Relation.ReflTransGen (fun a b : ℚ × List Tensor × SqOp => Rewrites hermitian a.1 a.2.1 a.2.2 b.1 b.2.1 b.2.2) (c, ts, op) p →
      Dsrg.properFactors p.2.1 = Dsrg.properFactors ts := by
    intro p hp
    induction hp with
    | refl => rfl
    | tail _ h2 ih => exact h2.properFactors.trans ih
  exact key _ h

/-! ### Simplification and canonicalization -/

theorem Term.simplify_properFactors {ord : SetOrder} (hord : ord.Lawful) {t t' : Term} {removeActive : Bool} (hw : t.WF)
    (hdiag : t.diag ⊆ diagonalOf t.tensors t.sqOp) (hp : Paired t.tensors t.sqOp)
    (h : t.simplify ord true removeActive = .ok t') : (removeActive = true ∧ t'.isVoid = true) ∨ properFactors t'.tensors = properFactors t.tensors := by
  unfold Term.simplify at h
  obtain ⟨cu, hcu, h⟩ := bind_ok h
  obtain ⟨de, hde, h⟩ := bind_ok h
  obtain ⟨st, hlo, h⟩ := bind_ok h
  obtain ⟨op, hop, h⟩ := bind_ok h
  obtain ⟨-, hdel, hfil, -⟩ := Term.simplify_stage hord hw hdiag hp hcu hde hlo
  by_cases hv : (removeActive && de.2.any (allActiveAmplitude st.1)) = true
  · rw [if_pos hv] at h
    injection h with h
    subst h
    rw [Bool.and_eq_true] at hv
    exact Or.inl ⟨hv.1, by simp [Term.isVoid]⟩
  · rw [if_neg hv] at h
    obtain ⟨ts, hts, h⟩ := bind_ok h
    injection h with h
    subst h
    obtain ⟨-, rfl, -⟩ := replaceTensors_ok (realizes_lookupIn _ _) hts
    refine Or.inr ?_
    show properFactors (de.2.map _) = _
    rw [properFactors_map (fun x _ => by simp [Tensor.sort, Tensor.relabel, Tensor.upper, Tensor.lower]), hfil,
      properFactors_eq, properFactors_eq, List.filter_filter]
    congr 2
    refine List.filter_congr fun x _ => ?_
    by_cases hx : x.proper = true
    · rw [hx, Bool.true_and]
      unfold Tensor.proper at hx
      have hx := of_decide_eq_true hx
      simp only [decide_eq_true_eq]
      rintro (e | ⟨-, e, -⟩)
      · exact hx.2.2 e
      · exact hx.1 e
    · have hx : x.proper = false := by simpa using hx
      rw [hx, Bool.false_and]

theorem Term.canonicalizeSympy_properFactors {canon : List Nat → List (Nat × Nat) → List SlotGroup → Option (List Nat)} (hcanon : CanonContract canon)
    {ord : SetOrder} (hord : ord.Lawful) {t r : Term} {removeActive hermitian : Bool} (hw : t.WF)
    (hdiag : t.diag ⊆ diagonalOf t.tensors t.sqOp) (hp : Paired t.tensors t.sqOp)
    (hbal : t.sqOp.upper.list.length = t.sqOp.lower.list.length) (hkind : ∀ x ∈ t.tensors, UsualKind x)
    (hty : ∀ x ∈ t.tensors, x.upper.ty = .spinOrbital) (hop : t.sqOp.upper.ty = .spinOrbital)
    (hr : t.canonicalizeSympy canon ord true removeActive hermitian = .ok r) : r.tensors = [] ∨ properFactors r.tensors = properFactors t.tensors := by
  rw [canonicalizeSympy_eq] at hr
  obtain ⟨s, hs, hr⟩ := bind_ok hr
  have hjs := Term.simplify_properFactors hord hw hdiag hp hs
  obtain ⟨-, hb, -⟩ := Term.simplify_tidy hord hw hdiag hp hs
  obtain ⟨f, hf, hfop⟩ := Term.simplify_origin hs
  by_cases hv : s.isVoid = true
  · unfold sympyTail at hr
    rw [if_pos hv] at hr
    unfold Term.void at hr
    obtain ⟨-, -, -, rfl⟩ := Term.make_ok.1 hr
    exact Or.inl rfl
  · have hv : s.isVoid = false := by simpa using hv
    have hops : s.sqOp.upper.ty = .spinOrbital ∧ s.sqOp.lower.ty = .spinOrbital := by
      rcases hfop with e | ⟨e, -⟩ <;> rw [e] <;> exact ⟨hop, hop⟩
    refine Or.inr ((sympyTail_back hcanon (Term.simplify_shape hw.set_sub hs).1 (by rw [hops.1]; rfl) ?_ ?_ (hops.2.trans hops.1.symm) (hb hbal) ?_ hv
      hr).properFactors.trans (hjs.resolve_left (by simp [hv])))
    · intro x hx
      obtain ⟨y, hy, -, rfl⟩ := hf x hx
      exact (hty y hy).trans hops.1.symm
    · intro x hx
      obtain ⟨y, hy, -, rfl⟩ := hf x hx
      rfl
    · intro x hx y hy e
      obtain ⟨x', hx', -, rfl⟩ := hf x hx
      obtain ⟨y', hy', -, rfl⟩ := hf y hy
      exact (hkind x' hx').consistent (hkind y' hy') e

/-! ### Contractions -/

theorem canonicalizeRow_properFactors {m : Machine} (hcanon : CanonContract m.canon) (hord : m.ord.Lawful) {terms : List Term}
    (h : ∀ t ∈ terms, GoodTerm t) (hd : terms.Pairwise DisjointLabels) {maxCu maxOpen minOpen : Int}
    {expand : Bool} {c : List Tensor} (hA : Allowed (productOps terms) maxCu maxOpen minOpen c) {row : Row}
    (hrow : row ∈ resultRows (productOps terms) expand c) {k : ℚ} {hermitian : Bool} {r : Term}
    (hr : canonicalizeRow m (productTensors terms) k hermitian row = .ok r) :
    r.tensors = [] ∨ properFactors r.tensors = (terms.map fun t => properFactors t.tensors).sum := by
  have hof := ordinary_of_good h hd
  have hk := contractible_of_good h hd
  have hden := resultRows_density hA row hrow
  unfold canonicalizeRow at hr
  obtain ⟨t, ht, hr⟩ := bind_ok hr
  have hw := Term.wf_of_make ht
  obtain ⟨hty, -, -, rfl⟩ := Term.make_ok.1 ht
  have hopt : row.2.2.upper.ty = .spinOrbital := by
    unfold resultRows at hrow
    obtain ⟨e, -, rfl⟩ := List.mem_map.1 hrow
    rfl
  have hperm := (sortTensors_perm (productTensors terms ++ row.2.1)).symm
  have key := Term.canonicalizeSympy_properFactors hcanon hord hw (by
      refine (Finset.Subset.antisymm_iff.1 ?_).1
      ext i
      simp only [mem_diagonalOf, (sortTensors_perm _).mem_iff]) ((row_paired h hd hA hrow).perm hperm) (row_balanced hof hk hA hrow) (by
      intro x hx
      rcases List.mem_append.1 (hperm.mem_iff.2 hx) with hx | hx
      · obtain ⟨t, ht, hx⟩ := List.mem_flatMap.1 hx
        exact (h t ht).kind x hx
      · exact Or.inl ⟨(hden x hx).cls, (hden x hx).name, (hden x hx).priority⟩) (fun x hx => (hty x (hperm.mem_iff.2 hx)).trans hopt) hopt hr
  refine key.imp_right fun key => ?_
  rw [key]
  show properFactors (sortTensors _) = _
  rw [← properFactors_perm hperm, properFactors_append, properFactors_densities fun x hx => (hden x hx).cls, add_zero]
  exact properFactors_flatMap terms

theorem LiveTerm.factors {t : Term} (h : LiveTerm t) : t.tensors ≠ [] := by
  obtain ⟨x, hx, -⟩ := h.keep
  exact List.ne_nil_of_mem hx

/-- The proper factors of a result of `contract_terms` are those of the product. -/
theorem ContractRun.properFactors {m : Machine} (hcanon : CanonContract m.canon) (hord : m.ord.Lawful) (hcpu : 1 ≤ m.cpus) {o : Options}
    (hn : 1 ≤ o.nProcess) {terms : List Term} (hne : terms ≠ []) (h : ∀ t ∈ terms, NiceTerm t) (hd : terms.Pairwise DisjointLabels) {scale : ℚ}
    {out : List Term} (hr : ContractRun m o terms scale out) :
    ∀ t ∈ out, Dsrg.properFactors t.tensors = (terms.map fun t => Dsrg.properFactors t.tensors).sum := by
  intro t ht
  have hnice := (ContractRun.fine hcanon hord hcpu hn hne h hd scale).2.2 out hr t ht
  refine (ContractRun.all (P := fun t => t.tensors = [] ∨ Dsrg.properFactors t.tensors = (terms.map fun t => Dsrg.properFactors t.tensors).sum)
    (fun _ _ h => h) (fun t ht => (h t ht).1) hd ?_ ?_ hr t ht).resolve_left hnice.2.factors
  · intro op c t ht
    obtain ⟨-, -, -, rfl⟩ := Term.make_ok.1 ht
    exact Or.inr ((properFactors_perm (sortTensors_perm _)).trans (properFactors_flatMap terms))
  · intro c row k r hA hrow hr
    exact canonicalizeRow_properFactors hcanon hord (fun t ht => (h t ht).1) hd hA hrow hr

theorem CommutatorRun.properFactors {m : Machine} (hcanon : CanonContract m.canon) (hord : m.ord.Lawful) (hcpu : 1 ≤ m.cpus) {o : Options}
    (hn : 1 ≤ o.nProcess) {a b : Term} (ha : NiceTerm a) (hb : NiceTerm b) (hd : DisjointLabels a b) {scale : ℚ}
    {out : List Term} (hr : CommutatorRun m o a b scale out) :
    ∀ t ∈ out, Dsrg.properFactors t.tensors = Dsrg.properFactors a.tensors + Dsrg.properFactors b.tensors := by
  unfold CommutatorRun at hr
  split_ifs at hr with h0
  · subst hr; simp
  · obtain ⟨o1, o2, r1, r2, hc⟩ := hr
    refine combine_all (P := fun t => Dsrg.properFactors t.tensors = Dsrg.properFactors a.tensors + Dsrg.properFactors b.tensors) (fun _ _ h => h) ?_ hc
    intro t ht
    rcases List.mem_append.1 ht with ht | ht
    · rw [ContractRun.properFactors hcanon hord hcpu hn (by simp) (by simpa using ⟨ha, hb⟩) (by simpa using hd) r1 t ht]
      simp
    · rw [ContractRun.properFactors hcanon hord hcpu hn (by simp) (by simpa using ⟨hb, ha⟩) (List.pairwise_pair.2 (Disjoint.symm hd)) r2 t ht]
      simp [add_comm]

/-- The results of a loop over commutators. -/
theorem CommutatorsRun.properFactors {m : Machine} (hcanon : CanonContract m.canon) (hord : m.ord.Lawful) (hcpu : 1 ≤ m.cpus) {o : Options}
    (hn : 1 ≤ o.nProcess) {scale : ℚ} : ∀ {pairs : List (Term × Term)} {out : List Term},
    (∀ p ∈ pairs, NiceTerm p.1 ∧ NiceTerm p.2 ∧ DisjointLabels p.1 p.2) → CommutatorsRun m o scale pairs out →
    ∀ t ∈ out, ∃ p ∈ pairs, Dsrg.properFactors t.tensors = Dsrg.properFactors p.1.tensors + Dsrg.properFactors p.2.tensors := by
  intro pairs
  induction pairs with
  | nil =>
    intro out _ h
    rw [show out = [] from h]
    simp
  | cons p pairs ih =>
    rintro out h ⟨o1, o2, h1, h2, rfl⟩ t ht
    obtain ⟨a1, a2, a3⟩ := h p (by simp)
    rcases List.mem_append.1 ht with ht | ht
    · exact ⟨p, by simp, CommutatorRun.properFactors hcanon hord hcpu hn a1 a2 a3 h1 t ht⟩
    · obtain ⟨q, hq, e⟩ := ih (fun q hq => h q (by simp [hq])) h2 t ht
      exact ⟨q, by simp [hq], e⟩

/-! ### Expansions -/

theorem ofOrder_iff {h n : Nat} {ts : List Tensor} : OfOrder h n ts ↔ (properFactors ts).countP (fun k => k.1 = .hamiltonian) = h ∧
    (properFactors ts).countP (fun k => k.1 = .cluster) = n ∧ (properFactors ts).countP (fun k => k.1 = .tensor) = 0 := by
  have key : ∀ c : TCls, c ≠ .cumulant → c ≠ .hole → c ≠ .kronecker →
      (properFactors ts).countP (fun k => k.1 = c) = (ts.filter fun x => decide (x.cls = c)).length := by
    intro c h1 h2 h3
    rw [properFactors_eq, Multiset.coe_countP, List.countP_map, List.countP_filter, List.countP_eq_length_filter]
    congr 1
    refine List.filter_congr fun x _ => ?_
    simp only [Function.comp, Tensor.sort, Tensor.proper]
    by_cases e : x.cls = c
    · simp [e, h1, h2, h3]
    · simp [e]
  rw [key _ (by decide) (by decide) (by decide), key _ (by decide) (by decide) (by decide), key _ (by decide) (by decide) (by decide)]
  constructor
  · rintro ⟨a, b, c⟩
    refine ⟨a, b, ?_⟩
    rw [List.length_eq_zero_iff, List.filter_eq_nil_iff]
    simpa using c
  · rintro ⟨a, b, c⟩
    refine ⟨a, b, ?_⟩
    rw [List.length_eq_zero_iff, List.filter_eq_nil_iff] at c
    simpa using c

theorem OfOrder.of_eq {h n : Nat} {ts ts' : List Tensor} (e : properFactors ts' = properFactors ts) (ho : OfOrder h n ts) : OfOrder h n ts' := by
  rw [ofOrder_iff] at *
  rwa [e]

theorem OfOrder.of_add {h n h' n' : Nat} {ts a b : List Tensor} (e : properFactors ts = properFactors a + properFactors b) (ha : OfOrder h n a)
    (hb : OfOrder h' n' b) : OfOrder (h + h') (n + n') ts := by
  rw [ofOrder_iff] at *
  rw [e, Multiset.countP_add, Multiset.countP_add, Multiset.countP_add]
  omega

theorem ofOrder_nil : OfOrder 0 0 [] := ⟨rfl, rfl, by simp⟩

theorem ofOrder_combine {h n : Nat} {l out : List Term} (ho : ∀ t ∈ l, OfOrder h n t.tensors) (hc : combineTerms l = .ok out) :
    ∀ t ∈ out, OfOrder h n t.tensors :=
  combine_all (P := fun t => OfOrder h n t.tensors) (fun _ _ h => h) ho hc

theorem ofOrder_copies {h n : Nat} {l out : List Term} (ho : ∀ t ∈ l, OfOrder h n t.tensors) (hc : (l.mapM fun t => t.fromTerm false false) = .ok out) :
    ∀ t ∈ out, OfOrder h n t.tensors := by
  intro x hx
  obtain ⟨t, ht, e⟩ := forall₂_mem_right (forall₂_of_mapM hc) hx
  exact (ho t ht).of_eq (properFactors_perm (fromTerm_copy e).1)

theorem ofOrder_hamiltonian {k start : Nat} {t : Term} (h : hamiltonianOperator k start .spinOrbital = .ok t) : OfOrder 1 0 t.tensors := by
  obtain ⟨t', x, h1, h2, h3, -⟩ := C38_hamiltonian k start .spinOrbital
  rw [h] at h1
  injection h1 with h1
  subst h1
  rw [h2]
  exact ⟨by simp [h3], by simp [h3], by simp [h3]⟩

theorem ofOrder_cluster {k start : Nat} {excitation : Bool} {scale : ℚ} {singleRef : Bool} {t : Term}
    (h : clusterOperator k start excitation ['T'] scale (holeSpace singleRef) (particleSpace singleRef) .spinOrbital = .ok t) :
    OfOrder 0 1 t.tensors := by
  have hb1 : (holeSpace singleRef).beta = false := by cases singleRef <;> rfl
  have hb2 : (particleSpace singleRef).beta = false := by cases singleRef <;> rfl
  obtain ⟨t', x, h1, h2, h3, -⟩ := C38_cluster k start excitation ['T'] scale (holeSpace singleRef) (particleSpace singleRef) .spinOrbital
    (hb1.trans hb2.symm) fun _ => hb1
  rw [h] at h1
  injection h1 with h1
  subst h1
  rw [h2]
  exact ⟨by simp [h3], by simp [h3], by simp [h3]⟩

theorem ofOrder_clusterOperators {levels : List Nat} {start : Nat} {unitary singleRef : Bool} {amps : List Term}
    (h : clusterOperators levels start unitary singleRef = .ok amps) : ∀ t ∈ amps, OfOrder 0 1 t.tensors := by
  have key : ∀ {excitation : Bool} {scale : ℚ} {l : List Term}, (levels.mapM fun k =>
      clusterOperator k start excitation ['T'] scale (holeSpace singleRef) (particleSpace singleRef) .spinOrbital) = .ok l →
      ∀ t ∈ l, OfOrder 0 1 t.tensors := by
    intro excitation scale l hl t ht
    obtain ⟨k, -, e⟩ := forall₂_mem_right (forall₂_of_mapM hl) ht
    exact ofOrder_cluster e
  unfold clusterOperators at h
  obtain ⟨a, ha, h⟩ := bind_ok h
  split_ifs at h
  · obtain ⟨b, hb, h⟩ := bind_ok h
    injection h with h
    subst h
    intro t ht
    rcases List.mem_append.1 ht with ht | ht
    · exact key ha t ht
    · exact key hb t ht
  · injection h with h
    subst h
    exact key ha

theorem ofOrder_bchStart {ord : SetOrder} (hord : ord.Lawful) {start : List Term} (h : bchStart ord = .ok start) : ∀ r ∈ start, OfOrder 1 0 r.tensors := by
  have key : ∀ {k : Nat} {out : List Term}, expandedHamiltonian ord k = .ok out → ∀ r ∈ out, OfOrder 1 0 r.tensors := by
    intro k out h
    unfold expandedHamiltonian at h
    obtain ⟨t, ht, h⟩ := bind_ok h
    obtain ⟨rows, hrows, h⟩ := bind_ok h
    refine ofOrder_combine ?_ h
    intro r hr
    obtain ⟨-, -, -, -, x, e1, e2, -⟩ := expand_good hord ht hrows r hr
    rw [e1]
    exact ⟨by simp [e2], by simp [e2], by simp [e2]⟩
  unfold bchStart at h
  obtain ⟨a, ha, h⟩ := bind_ok h
  obtain ⟨b, hb, h⟩ := bind_ok h
  injection h with h
  subst h
  intro r hr
  rcases List.mem_append.1 hr with h | h
  · exact key ha r h
  · exact key hb r h

theorem BchLevels.ofOrder {m : Machine} (hcanon : CanonContract m.canon) (hord : m.ord.Lawful) (hcpu : 1 ≤ m.cpus) {o : Options} (hn : 1 ≤ o.nProcess)
    {levels : List Nat} (hk : ∀ k ∈ levels, 1 ≤ k) {unitary singleRef : Bool} {maxLevel : Nat} (hmax : ∀ k ∈ levels, k ≤ maxLevel) :
    ∀ {limits : List (Int × Int × Int)} {i : Nat} {pool : List Term} {calls : List (List (Term × Term))} {outs : List (List Term)},
      GoodList (i * (maxLevel * 2) + 4) pool → (∀ t ∈ pool, NiceTerm t) → (∀ t ∈ pool, OfOrder 1 i t.tensors) →
      BchLevels m o levels unitary singleRef (maxLevel * 2) i pool limits calls outs →
      ∀ j out, outs[j]? = some out → ∀ t ∈ out, OfOrder 1 (i + 1 + j) t.tensors := by
  intro limits
  induction limits with
  | nil =>
    rintro i pool calls outs _ _ _ ⟨-, rfl⟩
    simp
  | cons x limits ih =>
    obtain ⟨maxCu, minOpen, maxOpen⟩ := x
    rintro i pool calls outs hp hw ho ⟨amps, all, copies, out, pool', calls', outs', h1, h2, h3, h4, h5, h6, rfl, rfl⟩
    have hpairs := level_pairs hmax hp h1
    have hampn := clusterOperators_nice hk h1
    have hampo := ofOrder_clusterOperators h1
    have hpn : ∀ p ∈ pool.flatMap fun l => amps.map fun r => (l, r), NiceTerm p.1 ∧ NiceTerm p.2 ∧ DisjointLabels p.1 p.2 := by
      intro p hpm
      have hd := (hpairs p hpm).2.2.1
      obtain ⟨l, hl, hpm⟩ := List.mem_flatMap.1 hpm
      obtain ⟨r, hr, rfl⟩ := List.mem_map.1 hpm
      exact ⟨hw l hl, hampn r hr, hd⟩
    have hall : ∀ t ∈ all, OfOrder 1 (i + 1) t.tensors := by
      intro t ht
      obtain ⟨p, hpm, e⟩ := CommutatorsRun.properFactors hcanon hord hcpu (o := { o with maxCu := maxCu, maxOpen := maxOpen, minOpen := minOpen }) hn hpn h2 t ht
      obtain ⟨l, hl, hpm⟩ := List.mem_flatMap.1 hpm
      obtain ⟨r, hr, rfl⟩ := List.mem_map.1 hpm
      exact OfOrder.of_add e (ho l hl) (hampo r hr)
    have hnall := (CommutatorsRun.fine hcanon hord hcpu (o := { o with maxCu := maxCu, maxOpen := maxOpen, minOpen := minOpen }) hn _ hpn).2.2 all h2
    have hout := ofOrder_combine (ofOrder_copies hall h3) h4
    have hnout := nice_combine (copies_live hnall h3) h4
    have g3 := (((CommutatorsRun.good hcanon hord hpairs h2).copies h3).combine h4).copies h5
    rw [show i * (maxLevel * 2) + 4 + maxLevel * 2 = (i + 1) * (maxLevel * 2) + 4 by ring] at g3
    intro j l hl
    cases j with
    | zero =>
      obtain rfl : out = l := by simpa using hl
      exact hout
    | succ j =>
      have := ih g3 (copies_live hnout h5) (ofOrder_copies hout h5) h6 j l (by simpa using hl)
      rwa [show i + 1 + 1 + j = i + 1 + (j + 1) by omega] at this

theorem RecursiveRun.properFactors {m : Machine} (hcanon : CanonContract m.canon) (hord : m.ord.Lawful) (hcpu : 1 ≤ m.cpus) {o : Options}
    (hn : 1 ≤ o.nProcess) :
    ∀ {levels : List (Term × Int × Int × Int)} {pool : List Term} {N : Nat} {s : Multiset (TCls × PyStr × Nat)} {outs : List (List Term)}, GoodList N pool →
      (∀ t ∈ pool, NiceTerm t) → (∀ t ∈ pool, Dsrg.properFactors t.tensors = s) → (∀ l ∈ levels, NiceTerm l.1) →
      (∀ pre l post, levels = pre ++ l :: post → ∀ i ∈ labelsOf l.1.tensors l.1.sqOp,
        N + (pre.map fun l => (labelsOf l.1.tensors l.1.sqOp).card).sum ≤ i.number) →
      RecursiveRun m o pool levels outs → ∀ j out, outs[j]? = some out → ∀ t ∈ out,
        Dsrg.properFactors t.tensors = s + ((levels.take (j + 1)).map fun l => Dsrg.properFactors l.1.tensors).sum := by
  intro levels
  induction levels with
  | nil =>
    rintro pool N s outs _ _ _ _ _ h
    rw [show outs = [] from h]
    simp
  | cons x levels ih =>
    obtain ⟨right, maxCu, minOpen, maxOpen⟩ := x
    rintro pool N s outs hp hw hs hl hnum ⟨all, out, outs', h1, h2, h3, rfl⟩
    have hr := hl (right, maxCu, minOpen, maxOpen) (by simp)
    have hd : ∀ l ∈ pool, DisjointLabels l right := fun l hlm => disjointLabels_of_numbers (hp l hlm).2.number fun i hi => by
      simpa using hnum [] (right, maxCu, minOpen, maxOpen) levels rfl i hi
    have hpair : ∀ p ∈ pool.map fun l => (l, right), GoodTerm p.1 ∧ GoodTerm p.2 ∧ DisjointLabels p.1 p.2 ∧
        (labelsOf p.1.tensors p.1.sqOp).card + (labelsOf p.2.tensors p.2.sqOp).card ≤ N + (labelsOf right.tensors right.sqOp).card := by
      intro p hpm
      obtain ⟨l, hlm, rfl⟩ := List.mem_map.1 hpm
      have := (hp l hlm).2.card
      exact ⟨(hp l hlm).1, hr.1, hd l hlm, by simpa using this⟩
    have hpn : ∀ p ∈ pool.map fun l => (l, right), NiceTerm p.1 ∧ NiceTerm p.2 ∧ DisjointLabels p.1 p.2 := by
      intro p hpm
      obtain ⟨l, hlm, rfl⟩ := List.mem_map.1 hpm
      exact ⟨hw l hlm, hr, hd l hlm⟩
    have hall : ∀ t ∈ all, Dsrg.properFactors t.tensors = s + Dsrg.properFactors right.tensors := by
      intro t ht
      obtain ⟨p, hpm, e⟩ := CommutatorsRun.properFactors hcanon hord hcpu (o := { o with maxCu := maxCu, maxOpen := maxOpen, minOpen := minOpen }) hn hpn h1 t ht
      obtain ⟨l, hlm, rfl⟩ := List.mem_map.1 hpm
      rw [e, hs l hlm]
    have hnall := (CommutatorsRun.fine hcanon hord hcpu (o := { o with maxCu := maxCu, maxOpen := maxOpen, minOpen := minOpen }) hn _ hpn).2.2 all h1
    have hout := combine_all (P := fun t => Dsrg.properFactors t.tensors = s + Dsrg.properFactors right.tensors) (fun _ _ h => h) hall h2
    intro j l hl'
    cases j with
    | zero =>
      obtain rfl : out = l := by simpa using hl'
      simpa using hout
    | succ j =>
      intro t ht
      rw [ih ((CommutatorsRun.good hcanon hord hpair h1).combine h2) (nice_combine hnall h2) hout (fun l hl' => hl l (by simp [hl'])) (by
        intro pre l post e i hi
        have := hnum ((right, maxCu, minOpen, maxOpen) :: pre) l post (by rw [e]; rfl) i hi
        simp only [List.map_cons, List.sum_cons] at this
        omega) h3 j l (by simpa using hl') t ht]
      simp [add_assoc]

/-! ### Nested commutators -/

theorem ofOrder_sum {terms : List Term} : ∀ {names : List OpName}, List.Forall₂ (fun (x : OpName) (t : Term) =>
      OfOrder (if x.isH then 1 else 0) (if x.isH then 0 else 1) t.tensors) names terms →
    ∀ {ts : List Tensor}, properFactors ts = (terms.map fun t => properFactors t.tensors).sum →
      OfOrder (names.countP OpName.isH) (names.countP fun x => !x.isH) ts := by
  induction terms with
  | nil =>
    intro names h ts e
    cases h
    exact ofOrder_nil.of_eq (by rw [e]; rfl)
  | cons t terms ih =>
    intro names h ts e
    cases h with
    | cons h1 h2 =>
      rename_i x names
      have := OfOrder.of_add (ts := ts) (a := t.tensors) (b := terms.flatMap Term.tensors) (by
        rw [e, List.map_cons, List.sum_cons, properFactors_flatMap]) h1 (ih h2 (properFactors_flatMap _))
      rw [List.countP_cons, List.countP_cons]
      cases hx : x.isH <;> simpa [hx, add_comm] using this

theorem nestedFactors_ofOrder {singleRef : Bool} : ∀ {names : List OpName} {start : Nat} {terms : List Term},
    nestedFactors singleRef start names = .ok terms → List.Forall₂ (fun (x : OpName) (t : Term) =>
      OfOrder (if x.isH then 1 else 0) (if x.isH then 0 else 1) t.tensors) names terms := by
  intro names
  induction names with
  | nil =>
    intro start terms h
    injection h with h
    subst h
    exact .nil
  | cons x names ih =>
    intro start terms h
    cases x with
    | H k =>
      unfold nestedFactors at h
      obtain ⟨t, ht, h⟩ := bind_ok h
      obtain ⟨ts, hts, h⟩ := bind_ok h
      injection h with h
      subst h
      exact .cons (ofOrder_hamiltonian ht) (ih hts)
    | T k =>
      unfold nestedFactors at h
      obtain ⟨t, ht, h⟩ := bind_ok h
      obtain ⟨ts, hts, h⟩ := bind_ok h
      injection h with h
      subst h
      exact .cons (ofOrder_cluster ht) (ih hts)
    | X k =>
      unfold nestedFactors at h
      obtain ⟨t, ht, h⟩ := bind_ok h
      obtain ⟨ts, hts, h⟩ := bind_ok h
      injection h with h
      subst h
      exact .cons (ofOrder_cluster ht) (ih hts)

theorem NestedLoop.ofOrder {m : Machine} (hcanon : CanonContract m.canon) (hord : m.ord.Lawful) (hcpu : 1 ≤ m.cpus) {o : Options} (hn : 1 ≤ o.nProcess)
    {singleRef : Bool} {scale : ℚ} {n : Nat} : ∀ {e : List (ℤ × List OpName)} {calls : List (List Term × ℚ)} {out : List Term},
    (∀ p ∈ e, p.2.countP OpName.isH = 1 ∧ p.2.length = n + 1 ∧ ∀ x ∈ p.2, 1 ≤ x.bodies) →
    NestedLoop m o singleRef scale e calls out → ∀ t ∈ out, OfOrder 1 n t.tensors := by
  intro e
  induction e with
  | nil =>
    rintro calls out _ ⟨rfl, rfl⟩
    simp
  | cons p e ih =>
    obtain ⟨c, names⟩ := p
    rintro calls out h ⟨terms, o1, calls', o2, ht, hr, hl, rfl, rfl⟩ t hmem
    obtain ⟨h1, h2, h3⟩ := h (c, names) (by simp)
    replace h1 : names.countP OpName.isH = 1 := h1
    replace h2 : names.length = n + 1 := h2
    rcases List.mem_append.1 hmem with hmem | hmem
    · obtain ⟨g1, g2, -⟩ := nestedFactors_good h1.le ht
      obtain ⟨terms', ht', hlive, hlen⟩ := nestedFactors_live (singleRef := singleRef) names 0
      rw [ht] at ht'
      injection ht' with ht'
      subst ht'
      have hne : terms ≠ [] := by
        intro e
        rw [e] at hlen
        simp only [List.length_nil] at hlen
        omega
      have hpf := ContractRun.properFactors hcanon hord hcpu hn hne (fun t ht => ⟨g1 t ht, hlive h3 t ht⟩) g2 hr t hmem
      have := ofOrder_sum (nestedFactors_ofOrder ht) hpf
      have hc := List.length_eq_countP_add_countP OpName.isH (l := names)
      have hn' : (names.countP fun x => !x.isH) = n := by
        have e : (names.countP fun x => !x.isH) = names.countP (fun a => decide ¬ a.isH = true) := List.countP_congr (by simp)
        rw [e]
        omega
      rwa [h1, hn'] at this
    · exact ih (fun q hq => h q (by simp [hq])) hl t hmem

end Dsrg
