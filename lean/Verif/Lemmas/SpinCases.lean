import Verif.Lemmas.TermOps
import Verif.Spec.SpinCases
import Verif.Spec.Constructed
import Verif.Props.Tensors
import Verif.Lemmas.Runs

/-!
Lemmas for `generate_spin_cases_naive`.
-/

namespace Dsrg

/-! ### Labels with spin -/

theorem toAlpha_spinLabel {B : Finset Index} {i : Index} (hi : i.isBeta = false) : (spinLabel B i).toAlpha = i := by
  obtain ⟨⟨k, b⟩, n⟩ := i
  simp only [Index.isBeta] at hi
  subst hi
  rfl

theorem spinLabel_isBeta (B : Finset Index) (i : Index) : (spinLabel B i).isBeta = decide (i ∈ B) := rfl

theorem spinLabel_inj {B : Finset Index} {i j : Index} (hi : i.isBeta = false) (hj : j.isBeta = false) (h : spinLabel B i = spinLabel B j) :
    i = j := by
  rw [← toAlpha_spinLabel (B := B) hi, h, toAlpha_spinLabel hj]

theorem spinLabel_empty {i : Index} (hi : i.isBeta = false) : spinLabel ∅ i = i := by
  obtain ⟨⟨k, b⟩, n⟩ := i
  simp only [Index.isBeta] at hi
  subst hi
  rfl

theorem eq_spinLabel {B : Finset Index} {j : Index} (h : j.isBeta = decide (j.toAlpha ∈ B)) : j = spinLabel B j.toAlpha := by
  obtain ⟨⟨k, b⟩, n⟩ := j
  simp only [Index.isBeta] at h
  unfold spinLabel
  rw [← h]
  rfl

theorem isBeta_toAlpha (j : Index) : j.toAlpha.isBeta = false := rfl

theorem toAlpha_toBeta {i : Index} (hi : i.isBeta = false) : i.toBeta.toAlpha = i := by
  obtain ⟨⟨k, b⟩, n⟩ := i
  simp only [Index.isBeta] at hi
  subst hi
  rfl

theorem toBeta_toAlpha {j : Index} (hj : j.isBeta = true) : j.toAlpha.toBeta = j := by
  obtain ⟨⟨k, b⟩, n⟩ := j
  simp only [Index.isBeta] at hj
  subst hj
  rfl

theorem toAlpha_self {j : Index} (hj : j.isBeta = false) : j.toAlpha = j := by
  obtain ⟨⟨k, b⟩, n⟩ := j
  simp only [Index.isBeta] at hj
  subst hj
  rfl

/-- `y` is one of the spin cases of `x`. -/
structure IsSpinCase (x y : IndicesPair) : Prop where
  uty : y.upper.ty = .spinIntegrated
  lty : y.lower.ty = .spinIntegrated
  upper : y.upper.list.map Index.toAlpha = x.upper.list
  lower : y.lower.list.map Index.toAlpha = x.lower.list
  beta : y.upper.nBeta = y.lower.nBeta

theorem IsSpinCase.mem_upper {x y : IndicesPair} (h : IsSpinCase x y) {j : Index} (hj : j ∈ y.upper.list) : j.toAlpha ∈ x.upper.list := by
  rw [← h.upper]; exact List.mem_map_of_mem hj

theorem IsSpinCase.mem_lower {x y : IndicesPair} (h : IsSpinCase x y) {j : Index} (hj : j ∈ y.lower.list) : j.toAlpha ∈ x.lower.list := by
  rw [← h.lower]; exact List.mem_map_of_mem hj

theorem nBeta_spin (B : Finset Index) (l : List Index) (ty : IType) :
    Indices.nBeta ⟨ty, l.map (spinLabel B)⟩ = l.countP fun i => decide (i ∈ B) := by
  unfold Indices.nBeta
  rw [List.countP_map]
  rfl

theorem map_toAlpha_spin (B : Finset Index) {l : List Index} (h : ∀ i ∈ l, i.isBeta = false) :
    (l.map (spinLabel B)).map Index.toAlpha = l := by
  rw [List.map_map]
  conv_rhs => rw [← List.map_id l]
  exact List.map_congr_left fun i hi => toAlpha_spinLabel (h i hi)

theorem isSpinCase_spinPair {x : IndicesPair} (B : Finset Index) (hu : ∀ i ∈ x.upper.list, i.isBeta = false)
    (hl : ∀ i ∈ x.lower.list, i.isBeta = false) : IsSpinCase x (spinPair B x) ↔ ConservesSpin B x := by
  constructor
  · intro h
    have := h.beta
    rwa [spinPair, nBeta_spin, nBeta_spin] at this
  · intro h
    refine ⟨rfl, rfl, map_toAlpha_spin B hu, map_toAlpha_spin B hl, ?_⟩
    rw [spinPair, nBeta_spin, nBeta_spin]; exact h

theorem IsSpinCase.eq_spinPair {x y : IndicesPair} (h : IsSpinCase x y) {B : Finset Index}
    (hB : ∀ j ∈ y.upper.list ++ y.lower.list, j.isBeta = decide (j.toAlpha ∈ B)) : y = spinPair B x := by
  have key : ∀ (l l' : List Index), l.map Index.toAlpha = l' → (∀ j ∈ l, j.isBeta = decide (j.toAlpha ∈ B)) → l = l'.map (spinLabel B) := by
    rintro l l' rfl hl
    rw [List.map_map]
    conv_lhs => rw [← List.map_id l]
    exact List.map_congr_left fun j hj => eq_spinLabel (hl j hj)
  obtain ⟨⟨ty, u⟩, ⟨ty', l⟩⟩ := y
  have h1 := h.uty
  have h2 := h.lty
  simp only at h1 h2
  subst h1 h2
  rw [spinPair, key u _ h.upper fun j hj => hB j (List.mem_append_left _ hj), key l _ h.lower fun j hj => hB j (List.mem_append_right _ hj)]

/-! ### Spin cases of one factor -/

theorem pairCases_spec {x : IndicesPair} (hx : x.Constructed) (hty : x.upper.ty = .spinOrbital) {cases : List (Indices × Indices)}
    (h : x.generateSpinCases true = .ok cases) : cases.Nodup ∧ ∀ u l, (u, l) ∈ cases ↔ IsSpinCase x ⟨u, l⟩ := by
  obtain ⟨h1, h2, h3⟩ := hx
  have hlt : x.lower.ty = .spinOrbital := by rw [← (IndicesPair.make_eq h3).2]; exact hty
  have hbal : x.nUpper = x.nLower := by
    by_contra hne
    unfold IndicesPair.generateSpinCases at h
    rw [if_neg (not_not.2 hty), if_pos ⟨rfl, hne⟩] at h
    cases h
  obtain ⟨cs, e1, e2, -, e4⟩ := C14_conserving x hty hlt ((Indices.wf_iff_make _).2 h1) ((Indices.wf_iff_make _).2 h2) _ rfl hbal.symm
  rw [e1] at h
  injection h with h
  subst h
  refine ⟨e2, fun u l => ?_⟩
  rw [e4]
  constructor
  · rintro ⟨⟨a, b⟩, ⟨c, d⟩, e⟩; exact ⟨a, c, b, d, e⟩
  · intro k; exact ⟨⟨k.uty, k.upper⟩, ⟨k.lty, k.lower⟩, k.beta⟩

theorem mapM_ok_map {α β : Type} {f : α → Except PyErr β} {g : α → β} (hg : ∀ a b, f a = .ok b → b = g a) {l : List α} {r : List β}
    (h : l.mapM f = .ok r) : r = l.map g := by
  rw [mapM_ok_forall₂] at h
  induction h with
  | nil => rfl
  | cons hab _ ih => rw [List.map_cons, ih, hg _ _ hab]

theorem opCases_spec {x : IndicesPair} (hx : x.Constructed) (hty : x.upper.ty = .spinOrbital) {cases : List (Indices × Indices)}
    (h : x.generateSpinCases true = .ok cases) {ops : List SqOp} (ho : (cases.mapM fun p => IndicesPair.make p.1 p.2) = .ok ops) :
    ops.Nodup ∧ ∀ y, y ∈ ops ↔ IsSpinCase x y := by
  obtain ⟨h1, h2⟩ := pairCases_spec hx hty h
  have e := mapM_ok_map (g := fun p : Indices × Indices => (⟨p.1, p.2⟩ : SqOp)) (fun a b hb => (IndicesPair.make_eq hb).1) ho
  subst e
  refine ⟨h1.map ?_, fun y => ?_⟩
  · rintro ⟨a, b⟩ ⟨c, d⟩ e; simpa using e
  · rw [List.mem_map]
    constructor
    · rintro ⟨⟨u, l⟩, hm, rfl⟩; exact (h2 u l).1 hm
    · intro k; exact ⟨(y.upper, y.lower), (h2 _ _).2 k, rfl⟩

/-- `y` is one of the spin cases of the tensor `x`. -/
def IsTensorCase (y x : Tensor) : Prop := IsSpinCase x.pair y.pair ∧ y.cls = x.cls ∧ y.name = x.name ∧ y.priority = x.priority

theorem tensorCases_spec {x : Tensor} (hx : x.Constructed) (hty : x.upper.ty = .spinOrbital) {ys : List Tensor}
    (h : x.generateSpinCases true = .ok ys) : ys.Nodup ∧ ∀ y, y ∈ ys ↔ IsTensorCase y x := by
  have hp : x.pair.Constructed := by
    refine ⟨hx.1, hx.2.1, ?_⟩
    have := (Tensor.make_eq hx.2.2).2
    unfold IndicesPair.make
    rw [if_neg (not_not.2 this)]
  unfold Tensor.generateSpinCases at h
  simp only [bind, Except.bind] at h
  cases hc : x.pair.generateSpinCases true with
  | error e => rw [hc] at h; cases h
  | ok cases =>
    rw [hc] at h
    simp only at h
    obtain ⟨h1, h2⟩ := pairCases_spec hp hty hc
    have e := mapM_ok_map (g := fun r : Indices × Indices => (⟨x.cls, x.name, x.priority, ⟨r.1, r.2⟩⟩ : Tensor))
      (fun a b hb => (Tensor.make_eq hb).1) h
    subst e
    refine ⟨h1.map ?_, fun y => ?_⟩
    · rintro ⟨a, b⟩ ⟨c, d⟩ e; simpa using e
    · rw [List.mem_map]
      constructor
      · rintro ⟨⟨u, l⟩, hm, rfl⟩; exact ⟨(h2 u l).1 hm, rfl, rfl, rfl⟩
      · rintro ⟨k, e1, e2, e3⟩
        refine ⟨(y.upper, y.lower), (h2 _ _).2 k, ?_⟩
        rw [← e1, ← e2, ← e3]

/-! ### The rows -/

/-- What is computed for one spin labeling. -/
def spinRow (canon : CanonFn) (ord : SetOrder) (c : ℚ) (op : SqOp) (ts : List Tensor) : Except PyErr Term :=
  Term.make ts op c >>= fun r => r.canonicalize canon ord true true true

theorem spinCase_ok {canon : CanonFn} {ord : SetOrder} {c : ℚ} {op : SqOp} {ts : List Tensor} {o : Option Term}
    (h : spinCase canon ord c op ts = .ok o) : (∃ r, spinRow canon ord c op ts = .ok r ∧ o = some r) ∨
      (spinRow canon ord c op ts = .error .valueError ∧ o = none) := by
  unfold spinCase at h
  change (match spinRow canon ord c op ts with
    | .ok r => .ok (some r)
    | .error .valueError => .ok none
    | .error e => .error e) = Except.ok o at h
  cases hr : spinRow canon ord c op ts with
  | ok r =>
    rw [hr] at h
    simp only [Except.ok.injEq] at h
    exact Or.inl ⟨r, rfl, h.symm⟩
  | error e =>
    rw [hr] at h
    cases e <;> simp at h
    exact Or.inr ⟨rfl, h.symm⟩

theorem forall₂_pools {α β : Type} {P : β → α → Prop} {xs : List α} {pools : List (List β)}
    (h : List.Forall₂ (fun x pool => ∀ y, y ∈ pool ↔ P y x) xs pools) (ys : List β) :
    List.Forall₂ (fun y pool => y ∈ pool) ys pools ↔ List.Forall₂ P ys xs := by
  induction h generalizing ys with
  | nil => simp
  | cons hx _ ih =>
    rw [List.forall₂_cons_right_iff, List.forall₂_cons_right_iff]
    constructor
    · rintro ⟨y, ys', h1, h2, rfl⟩; exact ⟨y, ys', (hx y).1 h1, (ih ys').1 h2, rfl⟩
    · rintro ⟨y, ys', h1, h2, rfl⟩; exact ⟨y, ys', (hx y).2 h1, (ih ys').2 h2, rfl⟩

theorem forall₂_imp_mem {α β : Type} {P Q : α → β → Prop} {xs : List α} {ys : List β} (h : List.Forall₂ P xs ys)
    (hi : ∀ x ∈ xs, ∀ y, P x y → Q x y) : List.Forall₂ Q xs ys := by
  induction h with
  | nil => exact .nil
  | cons hx _ ih => exact .cons (hi _ (by simp) _ hx) (ih fun x hx => hi x (by simp [hx]))

theorem spinCases_rows {canon : CanonFn} {ord : SetOrder} {t : Term} {rs : List Term} (hop : t.sqOp.Constructed)
    (hts : ∀ x ∈ t.tensors, x.Constructed) (hty : ∀ x ∈ t.tensors, x.upper.ty = t.sqOp.upper.ty)
    (h : t.generateSpinCasesNaive canon ord = .ok rs) : t.sqOp.upper.ty = .spinOrbital ∧ ∃ cands : List (SqOp × List Tensor), cands.Nodup ∧
      (∀ p, p ∈ cands ↔ IsSpinCase t.sqOp p.1 ∧ List.Forall₂ IsTensorCase p.2 t.tensors) ∧
      rs = cands.filterMap (fun p => (spinRow canon ord t.coeff p.1 p.2).toOption) ∧
      ∀ p ∈ cands, ∀ e, spinRow canon ord t.coeff p.1 p.2 = .error e → e = .valueError := by
  unfold Term.generateSpinCasesNaive at h
  by_cases ht : t.sqOp.upper.ty = .spinOrbital
  swap
  · rw [if_pos ht] at h; cases h
  rw [if_neg (not_not.2 ht)] at h
  simp only [bind, Except.bind, pure, Except.pure] at h
  cases h1 : t.sqOp.generateSpinCases true with
  | error e => rw [h1] at h; cases h
  | ok cases =>
  rw [h1] at h
  simp only at h
  cases h2 : cases.mapM fun p => IndicesPair.make p.1 p.2 with
  | error e => rw [h2] at h; cases h
  | ok ops =>
  rw [h2] at h
  simp only at h
  cases h3 : t.tensors.mapM fun x => x.generateSpinCases true with
  | error e => rw [h3] at h; cases h
  | ok pools =>
  rw [h3] at h
  simp only at h
  generalize hcands : (ops.flatMap fun op => (pyProduct pools).map fun ts => (op, ts)) = cands at h
  cases h4 : cands.mapM fun p => spinCase canon ord t.coeff p.1 p.2 with
  | error e => rw [h4] at h; cases h
  | ok rows =>
  rw [h4] at h
  simp only [Except.ok.injEq] at h
  obtain ⟨o1, o2⟩ := opCases_spec hop ht h1 h2
  have hpools := mapM_ok_forall₂.1 h3
  have hpool : ∀ p ∈ pools, p.Nodup := by
    intro p hp
    obtain ⟨x, hx, hxp⟩ := forall₂_mem hpools hp
    exact (tensorCases_spec (hts x hx) ((hty x hx).trans ht) hxp).1
  have hrows := mapM_ok_forall₂.1 h4
  refine ⟨ht, cands, ?_, ?_, ?_, ?_⟩
  · rw [← hcands]
    exact nodup_flatMap_pairs _ _ o1 fun _ _ => nodup_pyProduct hpool
  · rintro ⟨op, ts⟩
    rw [← hcands]
    simp only [List.mem_flatMap, List.mem_map, Prod.mk.injEq]
    have hprod : ts ∈ pyProduct pools ↔ List.Forall₂ IsTensorCase ts t.tensors := by
      rw [mem_pyProduct]
      refine forall₂_pools (forall₂_imp_mem hpools fun x hx pool hp => ?_) ts
      exact (tensorCases_spec (hts x hx) ((hty x hx).trans ht) hp).2
    constructor
    · rintro ⟨op', ho, ts', hts', rfl, rfl⟩
      exact ⟨(o2 _).1 ho, hprod.1 hts'⟩
    · rintro ⟨a, b⟩
      exact ⟨op, (o2 _).2 a, ts, hprod.2 b, rfl, rfl⟩
  · rw [← h]
    clear hcands h h4
    induction hrows with
    | nil => rfl
    | @cons p o cs os hp _ ih =>
      rcases spinCase_ok hp with ⟨r, e1, rfl⟩ | ⟨e1, rfl⟩
      · rw [List.filterMap_cons, List.filterMap_cons, e1, ← ih]; rfl
      · rw [List.filterMap_cons, List.filterMap_cons, e1, ← ih]; rfl
  · intro p hp e he
    obtain ⟨o, ho, hpo⟩ := forall₂_mem_left hrows hp
    rcases spinCase_ok hpo with ⟨r, e1, rfl⟩ | ⟨e1, rfl⟩
    · rw [e1] at he; cases he
    · rw [e1] at he; injection he with he; exact he.symm

/-! ### Consistent labelings -/

theorem labelList_spin (B : Finset Index) (ts : List Tensor) (op : SqOp) :
    labelList (ts.map (spinTensor B)) (spinPair B op) = (labelList ts op).map (spinLabel B) := by
  simp only [labelList, spinPair, List.map_append, List.flatMap_map, List.map_flatMap]
  rfl

theorem labelsOf_spin (B : Finset Index) (ts : List Tensor) (op : SqOp) :
    labelsOf (ts.map (spinTensor B)) (spinPair B op) = (labelsOf ts op).image (spinLabel B) := by
  ext i
  rw [mem_labelsOf, labelList_spin, List.mem_map, Finset.mem_image]
  simp only [mem_labelsOf]

theorem labelList_cases {op op' : SqOp} {ts ts' : List Tensor} (ho : IsSpinCase op op') (ht : List.Forall₂ IsTensorCase ts' ts) :
    (labelList ts' op').map Index.toAlpha = labelList ts op := by
  simp only [labelList, List.map_append, ho.upper, ho.lower]
  congr 1
  induction ht with
  | nil => rfl
  | cons h _ ih =>
    simp only [List.flatMap_cons, List.map_append, ih]
    have h1 := h.1.upper
    have h2 := h.1.lower
    simp only [Tensor.upper, Tensor.lower, h1, h2]

theorem diagonal_cases {op op' : SqOp} {ts ts' : List Tensor} (ho : IsSpinCase op op') (ht : List.Forall₂ IsTensorCase ts' ts)
    {j : Index} (hj : j ∈ diagonalOf ts' op') : j.toAlpha ∈ diagonalOf ts op := by
  rw [mem_diagonalOf] at hj ⊢
  rcases hj with ⟨h1, h2⟩ | ⟨y, hy, h1, h2⟩
  · exact Or.inl ⟨ho.mem_upper h1, ho.mem_lower h2⟩
  · obtain ⟨x, hx, hxy⟩ := forall₂_mem_left ht hy
    exact Or.inr ⟨x, hx, hxy.1.mem_upper h1, hxy.1.mem_lower h2⟩

/-- Without diagonal labels, a spin case is accepted by the constructor exactly when every label has the same spin at both places. -/
theorem consistent_of_make {op op' : SqOp} {ts ts' : List Tensor} (ho : IsSpinCase op op') (ht : List.Forall₂ IsTensorCase ts' ts)
    (hd : diagonalOf ts op = ∅) (htwo : ∀ i ∈ labelList ts op, (labelList ts op).count i = 2) {c : ℚ} {r : Term}
    (h : Term.make ts' op' c = .ok r) : ∃ B ⊆ labelsOf ts op, op' = spinPair B op ∧ ts' = ts.map (spinTensor B) := by
  obtain ⟨-, h2, -, -⟩ := Term.make_ok.1 h
  have hL := labelList_cases ho ht
  have hd' : diagonalOf ts' op' = ∅ := by
    rw [Finset.eq_empty_iff_forall_notMem]
    intro j hj
    have := diagonal_cases ho ht hj
    rw [hd] at this
    exact absurd this (Finset.notMem_empty _)
  have htwo' : ∀ j ∈ labelList ts' op', (labelList ts' op').count j = 2 := fun j hj => h2 j hj (by rw [hd']; exact Finset.notMem_empty _)
  refine ⟨(labelsOf ts op).filter fun i => i.toBeta ∈ labelList ts' op', Finset.filter_subset _ _, ?_⟩
  have key : ∀ j ∈ labelList ts' op', j.isBeta = decide (j.toAlpha ∈ (labelsOf ts op).filter fun i => i.toBeta ∈ labelList ts' op') := by
    intro j hj
    have hjL : j.toAlpha ∈ labelList ts op := by rw [← hL]; exact List.mem_map_of_mem hj
    rw [Bool.eq_iff_iff, decide_eq_true_eq, Finset.mem_filter, mem_labelsOf]
    constructor
    · intro hb
      exact ⟨hjL, by rw [toBeta_toAlpha hb]; exact hj⟩
    · rintro ⟨-, hb⟩
      by_contra hnb
      rw [Bool.not_eq_true] at hnb
      rw [toAlpha_self hnb] at hb hjL
      have c1 := htwo' _ hj
      have c2 := htwo' _ hb
      have c3 := htwo _ hjL
      rw [← hL] at c3
      have hne : j ≠ j.toBeta := by
        intro e
        have : j.toBeta.isBeta = true := rfl
        rw [← e, hnb] at this
        cases this
      have hsum : (labelList ts' op').count j + (labelList ts' op').count j.toBeta ≤ ((labelList ts' op').map Index.toAlpha).count j := by
        generalize labelList ts' op' = L
        clear c1 c2 c3 hb hj hL htwo' h2 hjL hd'
        induction L with
        | nil => simp
        | cons a L ih =>
          rw [List.map_cons, List.count_cons, List.count_cons, List.count_cons]
          by_cases h1 : a = j
          · subst h1
            have : a.toAlpha = a := toAlpha_self hnb
            simp [this, hne]; omega
          · by_cases h2 : a = j.toBeta
            · subst h2
              simp [toAlpha_toBeta hnb, hne.symm]; omega
            · simp [h1, h2]; split_ifs <;> omega
      omega
  refine ⟨ho.eq_spinPair fun j hj => key j (by unfold labelList; exact List.mem_append_left _ hj), ?_⟩
  have : ∀ y ∈ ts', ∀ j ∈ y.upper.list ++ y.lower.list, j ∈ labelList ts' op' := by
    intro y hy j hj; exact mem_labelList.2 (Or.inr ⟨y, hy, hj⟩)
  revert this key
  generalize (labelsOf ts op).filter (fun i => i.toBeta ∈ labelList ts' op') = B
  generalize labelList ts' op' = L
  intro key hmem
  clear h h2 hL hd hd' htwo htwo'
  induction ht with
  | nil => rfl
  | @cons y x ys xs h _ ih =>
    rw [List.map_cons, ← ih fun y hy => hmem y (by simp [hy])]
    congr 1
    obtain ⟨h1, h2, h3, h4⟩ := h
    obtain ⟨cls, name, prio, pair⟩ := y
    simp only at h1 h2 h3 h4
    subst h2 h3 h4
    rw [spinTensor, ← h1.eq_spinPair fun j hj => key j (hmem ⟨x.cls, x.name, x.priority, pair⟩ (by simp) j hj)]

theorem tensorCase_spin {B : Finset Index} {x : Tensor} (hu : ∀ i ∈ x.upper.list, i.isBeta = false) (hl : ∀ i ∈ x.lower.list, i.isBeta = false)
    (h : ConservesSpin B x.pair) : IsTensorCase (spinTensor B x) x := ⟨(isSpinCase_spinPair B hu hl).2 h, rfl, rfl, rfl⟩

theorem spinPair_empty_conserves (x : IndicesPair) : ConservesSpin ∅ x := by
  unfold ConservesSpin
  simp

theorem spin_make {B : Finset Index} {ts : List Tensor} {op : SqOp} (hal : ∀ i ∈ labelList ts op, i.isBeta = false)
    (htwo : ∀ i ∈ labelList ts op, i ∉ diagonalOf ts op → (labelList ts op).count i = 2)
    (hev : ∀ i ∈ diagonalOf ts op, (labelList ts op).count i % 2 = 0) (c : ℚ) :
    ∃ r, Term.make (ts.map (spinTensor B)) (spinPair B op) c = .ok r ∧ r.diag = (diagonalOf ts op).image (spinLabel B) := by
  have hcount : ∀ i ∈ labelList ts op, ((labelList ts op).map (spinLabel B)).count (spinLabel B i) = (labelList ts op).count i := by
    intro i hi
    exact count_map_of_inj i _ fun k hk e => spinLabel_inj (hal k hk) (hal i hi) e
  have hdiag : diagonalOf (ts.map (spinTensor B)) (spinPair B op) = (diagonalOf ts op).image (spinLabel B) := by
    have hmem : ∀ (l : List Index), (∀ i ∈ l, i ∈ labelList ts op) → ∀ i ∈ labelList ts op, (spinLabel B i ∈ l.map (spinLabel B) ↔ i ∈ l) := by
      intro l hl i hi
      constructor
      · intro h
        obtain ⟨k, hk, e⟩ := List.mem_map.1 h
        rwa [← spinLabel_inj (hal k (hl k hk)) (hal i hi) e]
      · exact fun h => List.mem_map_of_mem h
    have hou : ∀ i ∈ op.upper.list, i ∈ labelList ts op := fun i hi => mem_labelList.2 (Or.inl (List.mem_append_left _ hi))
    have hol : ∀ i ∈ op.lower.list, i ∈ labelList ts op := fun i hi => mem_labelList.2 (Or.inl (List.mem_append_right _ hi))
    have htu : ∀ x ∈ ts, ∀ i ∈ x.upper.list, i ∈ labelList ts op := fun x hx i hi => mem_labelList.2 (Or.inr ⟨x, hx, List.mem_append_left _ hi⟩)
    have htl : ∀ x ∈ ts, ∀ i ∈ x.lower.list, i ∈ labelList ts op := fun x hx i hi => mem_labelList.2 (Or.inr ⟨x, hx, List.mem_append_right _ hi⟩)
    ext j
    rw [mem_diagonalOf, Finset.mem_image]
    constructor
    · rintro (⟨h1, h2⟩ | ⟨y, hy, h1, h2⟩)
      · obtain ⟨i, hi, rfl⟩ := List.mem_map.1 h1
        exact ⟨i, mem_diagonalOf.2 (Or.inl ⟨hi, (hmem _ hol i (hou i hi)).1 h2⟩), rfl⟩
      · obtain ⟨x, hx, rfl⟩ := List.mem_map.1 hy
        obtain ⟨i, hi, rfl⟩ := List.mem_map.1 h1
        exact ⟨i, mem_diagonalOf.2 (Or.inr ⟨x, hx, hi, (hmem _ (htl x hx) i (htu x hx i hi)).1 h2⟩), rfl⟩
    · rintro ⟨i, hi, rfl⟩
      rcases mem_diagonalOf.1 hi with ⟨h1, h2⟩ | ⟨x, hx, h1, h2⟩
      · exact Or.inl ⟨List.mem_map_of_mem h1, List.mem_map_of_mem h2⟩
      · exact Or.inr ⟨_, List.mem_map_of_mem hx, List.mem_map_of_mem h1, List.mem_map_of_mem h2⟩
  refine ⟨_, Term.make_ok.2 ⟨?_, ?_, ?_, rfl⟩, hdiag⟩
  · intro y hy
    obtain ⟨x, -, rfl⟩ := List.mem_map.1 hy
    rfl
  · intro j hj hnd
    rw [labelList_spin] at hj ⊢
    obtain ⟨i, hi, rfl⟩ := List.mem_map.1 hj
    rw [hcount i hi]
    refine htwo i hi fun hd => hnd ?_
    rw [hdiag]; exact Finset.mem_image_of_mem _ hd
  · intro j hj
    rw [hdiag] at hj
    obtain ⟨i, hi, rfl⟩ := Finset.mem_image.1 hj
    rw [labelList_spin, hcount i ?_]
    · exact hev i hi
    · rcases mem_diagonalOf.1 hi with ⟨h1, -⟩ | ⟨x, hx, h1, -⟩
      · exact mem_labelList.2 (Or.inl (List.mem_append_left _ h1))
      · exact mem_labelList.2 (Or.inr ⟨x, hx, List.mem_append_left _ h1⟩)

/-- The rows of `generate_spin_cases_naive` are the canonical forms of the consistent, spin-conserving labelings. -/
theorem spinCases_choices {canon : CanonFn} {ord : SetOrder} {ts : List Tensor} {op : SqOp} {c : ℚ} {t : Term} (hmk : Term.make ts op c = .ok t)
    {rs : List Term} (hop : op.Constructed) (hts : ∀ x ∈ ts, x.Constructed) (h : t.generateSpinCasesNaive canon ord = .ok rs) :
    t.diag = ∅ ∧ ∃ choices : List (Finset Index), choices.Nodup ∧ (∀ B, B ∈ choices ↔ IsSpinLabeling t.tensors t.sqOp B) ∧
      rs = choices.filterMap (fun B => (spinRow canon ord c (spinPair B t.sqOp) (t.tensors.map (spinTensor B))).toOption) ∧
      ∀ B ∈ choices, ∀ e, spinRow canon ord c (spinPair B t.sqOp) (t.tensors.map (spinTensor B)) = .error e → e = .valueError := by
  obtain ⟨m1, m2, m3, m4⟩ := Term.make_ok.1 hmk
  have hperm : t.tensors.Perm ts := by rw [m4]; exact sortTensors_perm ts
  have htsq : t.sqOp = op := by rw [m4]
  have htc : t.coeff = c := by rw [m4]
  have htd : t.diag = diagonalOf ts op := by rw [m4]
  have hdd : diagonalOf t.tensors t.sqOp = diagonalOf ts op := by
    ext i; rw [mem_diagonalOf, mem_diagonalOf, htsq]; simp only [hperm.mem_iff]
  have hLL : (labelList t.tensors t.sqOp).Perm (labelList ts op) := by
    rw [htsq]; exact (hperm.flatMap_right _).append_left _
  subst htsq
  have hts' : ∀ x ∈ t.tensors, x.Constructed := fun x hx => hts x (hperm.mem_iff.1 hx)
  have hty' : ∀ x ∈ t.tensors, x.upper.ty = t.sqOp.upper.ty := fun x hx => m1 x (hperm.mem_iff.1 hx)
  obtain ⟨hso, cands, k1, k2, k3, k4⟩ := spinCases_rows hop hts' hty' h
  rw [htc] at k3 k4
  -- all labels are alpha
  have halu : ∀ (x : IndicesPair), x.upper.Constructed → x.lower.Constructed → x.upper.ty = .spinOrbital → x.lower.ty = .spinOrbital →
      (∀ i ∈ x.upper.list, i.isBeta = false) ∧ ∀ i ∈ x.lower.list, i.isBeta = false :=
    fun x h1 h2 h3 h4 => ⟨(Indices.make_eq h1).2.2 h3, (Indices.make_eq h2).2.2 h4⟩
  have halop := halu t.sqOp hop.1 hop.2.1 hso (by rw [← (IndicesPair.make_eq hop.2.2).2]; exact hso)
  have halts : ∀ x ∈ t.tensors, (∀ i ∈ x.upper.list, i.isBeta = false) ∧ ∀ i ∈ x.lower.list, i.isBeta = false := by
    intro x hx
    have hxt := (hty' x hx).trans hso
    exact halu x.pair (hts' x hx).1 (hts' x hx).2.1 hxt (by rw [← show x.upper.ty = x.lower.ty from (Tensor.make_eq (hts' x hx).2.2).2]; exact hxt)
  have hal : ∀ i ∈ labelList t.tensors t.sqOp, i.isBeta = false := by
    intro i hi
    rcases mem_labelList.1 hi with hi | ⟨x, hx, hi⟩
    · rcases List.mem_append.1 hi with hi | hi
      · exact halop.1 i hi
      · exact halop.2 i hi
    · rcases List.mem_append.1 hi with hi | hi
      · exact (halts x hx).1 i hi
      · exact (halts x hx).2 i hi
  have hcand : ∀ B, IsSpinLabeling t.tensors t.sqOp B → (spinPair B t.sqOp, t.tensors.map (spinTensor B)) ∈ cands := by
    intro B hB
    rw [k2]
    refine ⟨(isSpinCase_spinPair B halop.1 halop.2).2 hB.2.1, ?_⟩
    rw [List.forall₂_map_left_iff, List.forall₂_same]
    exact fun x hx => tensorCase_spin (halts x hx).1 (halts x hx).2 (hB.2.2 x hx)
  have htwo : ∀ i ∈ labelList t.tensors t.sqOp, i ∉ diagonalOf t.tensors t.sqOp → (labelList t.tensors t.sqOp).count i = 2 := by
    intro i hi hd
    rw [hLL.count_eq]; rw [hdd] at hd; exact m2 i (hLL.mem_iff.1 hi) hd
  have hev : ∀ i ∈ diagonalOf t.tensors t.sqOp, (labelList t.tensors t.sqOp).count i % 2 = 0 := by
    intro i hi
    rw [hdd] at hi
    rw [hLL.count_eq]; exact m3 i hi
  -- no diagonal labels: the all-alpha case would raise
  have hd0 : diagonalOf t.tensors t.sqOp = ∅ := by
    by_contra hne
    have hB : IsSpinLabeling t.tensors t.sqOp ∅ :=
      ⟨Finset.empty_subset _, spinPair_empty_conserves _, fun x _ => spinPair_empty_conserves _⟩
    obtain ⟨r, hr, hrd⟩ := spin_make (B := ∅) hal htwo hev c
    have hcard : r.diag.card ≠ 0 := by
      rw [hrd]
      intro e
      rw [Finset.card_eq_zero, Finset.image_eq_empty] at e
      exact hne e
    have := k4 _ (hcand ∅ hB) .notImplemented (by
      unfold spinRow
      simp only [hr, bind, Except.bind, Term.canonicalize, if_pos hcard])
    cases this
  have htwo0 : ∀ i ∈ labelList t.tensors t.sqOp, (labelList t.tensors t.sqOp).count i = 2 :=
    fun i hi => htwo i hi (by rw [hd0]; exact Finset.notMem_empty _)
  refine ⟨by rw [htd, ← hdd, hd0], ?_⟩
  -- the set of beta labels of a case
  let betaOf : SqOp × List Tensor → Finset Index := fun p => (labelsOf t.tensors t.sqOp).filter fun i => i.toBeta ∈ labelList p.2 p.1
  have hbeta : ∀ B ⊆ labelsOf t.tensors t.sqOp, betaOf (spinPair B t.sqOp, t.tensors.map (spinTensor B)) = B := by
    intro B hB
    ext i
    simp only [betaOf, Finset.mem_filter, labelList_spin, List.mem_map]
    constructor
    · rintro ⟨hi, k, hk, e⟩
      have hki : k = i := by
        rw [← toAlpha_spinLabel (B := B) (hal k hk), e, toAlpha_toBeta (hal i (mem_labelsOf.1 hi))]
      subst hki
      have : (spinLabel B k).isBeta = true := by rw [e]; rfl
      rw [spinLabel_isBeta] at this
      exact of_decide_eq_true this
    · intro hi
      refine ⟨hB hi, i, mem_labelsOf.1 (hB hi), ?_⟩
      simp [spinLabel, Index.toBeta, hi]
  have hcons : ∀ p ∈ cands, (∃ r, Term.make p.2 p.1 c = .ok r) →
      betaOf p ⊆ labelsOf t.tensors t.sqOp ∧ p = (spinPair (betaOf p) t.sqOp, t.tensors.map (spinTensor (betaOf p))) := by
    rintro ⟨op', ts'⟩ hp ⟨r, hr⟩
    obtain ⟨q1, q2⟩ := (k2 _).1 hp
    obtain ⟨B, hB, e1, e2⟩ := consistent_of_make q1 q2 hd0 htwo0 hr
    simp only at e1 e2
    subst e1 e2
    rw [hbeta B hB]
    exact ⟨hB, rfl⟩
  let good : SqOp × List Tensor → Bool := fun p => (Term.make p.2 p.1 c).toOption.isSome
  have hgood : ∀ p, good p = true ↔ ∃ r, Term.make p.2 p.1 c = .ok r := by
    intro p
    simp only [good]
    cases Term.make p.2 p.1 c with
    | ok r => simp [Except.toOption]
    | error e => simp [Except.toOption]
  refine ⟨(cands.filter good).map betaOf, ?_, ?_, ?_, ?_⟩
  · refine List.Nodup.map_on ?_ (k1.filter _)
    intro p hp q hq e
    obtain ⟨p1, p2⟩ := List.mem_filter.1 hp
    obtain ⟨q1, q2⟩ := List.mem_filter.1 hq
    rw [(hcons p p1 ((hgood p).1 p2)).2, (hcons q q1 ((hgood q).1 q2)).2, e]
  · intro B
    rw [List.mem_map]
    constructor
    · rintro ⟨p, hp, rfl⟩
      obtain ⟨p1, p2⟩ := List.mem_filter.1 hp
      obtain ⟨s1, s2⟩ := hcons p p1 ((hgood p).1 p2)
      have hm := (k2 p).1 p1
      rw [s2] at hm
      refine ⟨s1, (isSpinCase_spinPair _ halop.1 halop.2).1 ?_, ?_⟩
      · have := hm.1
        exact this
      · intro x hx
        have h2 := hm.2
        simp only [List.forall₂_map_left_iff, List.forall₂_same] at h2
        exact (isSpinCase_spinPair _ (halts x hx).1 (halts x hx).2).1 (h2 x hx).1
    · intro hB
      refine ⟨_, List.mem_filter.2 ⟨hcand B hB, (hgood _).2 ?_⟩, hbeta B hB.1⟩
      obtain ⟨r, hr, -⟩ := spin_make (B := B) hal htwo hev c
      exact ⟨r, hr⟩
  · rw [k3, List.filterMap_map]
    have : ∀ l : List (SqOp × List Tensor), (∀ p ∈ l, p ∈ cands) → l.filterMap (fun p => (spinRow canon ord c p.1 p.2).toOption) =
        (l.filter good).filterMap ((fun B => (spinRow canon ord c (spinPair B t.sqOp) (t.tensors.map (spinTensor B))).toOption) ∘ betaOf) := by
      intro l
      induction l with
      | nil => intro _; rfl
      | cons p l ih =>
        intro hl
        rw [List.filterMap_cons, ih fun q hq => hl q (by simp [hq])]
        by_cases hg : good p = true
        · rw [List.filter_cons_of_pos hg, List.filterMap_cons]
          have e := (hcons p (hl p (by simp)) ((hgood p).1 hg)).2
          have e1 : p.1 = spinPair (betaOf p) t.sqOp := by conv_lhs => rw [e]
          have e2 : p.2 = t.tensors.map (spinTensor (betaOf p)) := by conv_lhs => rw [e]
          rw [Function.comp_apply, ← e1, ← e2]
        · rw [List.filter_cons_of_neg hg]
          have : (spinRow canon ord c p.1 p.2).toOption = none := by
            cases hm : Term.make p.2 p.1 c with
            | ok r => exact absurd ((hgood p).2 ⟨r, hm⟩) hg
            | error e => simp only [spinRow, hm, bind, Except.bind, Except.toOption]
          rw [this]
    exact this cands fun _ hp => hp
  · intro B hB e he
    obtain ⟨p, hp, rfl⟩ := List.mem_map.1 hB
    obtain ⟨p1, p2⟩ := List.mem_filter.1 hp
    have q := (hcons p p1 ((hgood p).1 p2)).2
    have e1 : p.1 = spinPair (betaOf p) t.sqOp := by conv_lhs => rw [q]
    have e2 : p.2 = t.tensors.map (spinTensor (betaOf p)) := by conv_lhs => rw [q]
    rw [← e1, ← e2] at he
    exact k4 p p1 e he

/-! ### Values -/

section
variable {O R M : Type} [Fintype O] [DecidableEq O] [Inhabited O] [CommRing R] [Algebra ℚ R] [AddCommGroup M] [Module R M]

omit [Fintype O] [DecidableEq O] [Inhabited O] [Algebra ℚ R] [AddCommGroup M] [Module R M] in
theorem pval_spin (I : Interp O R M) (B : Finset Index) (τ : Index → O) (ts : List Tensor) :
    I.pval τ (ts.map (spinTensor B)) = I.pval (fun i => τ (spinLabel B i)) ts := by
  unfold Interp.pval
  rw [List.map_map]
  congr 1
  refine List.map_congr_left fun x _ => ?_
  show I.tval τ (spinTensor B x) = _
  simp only [Interp.tval, spinTensor, spinPair, Tensor.upper, Tensor.lower, List.map_map]
  rfl

omit [Fintype O] [DecidableEq O] [Inhabited O] [CommRing R] [Algebra ℚ R] [AddCommGroup M] [Module R M] in
theorem opval_spin (I : Interp O R M) (B : Finset Index) (τ : Index → O) (op : SqOp) :
    I.opval τ (spinPair B op) = I.opval (fun i => τ (spinLabel B i)) op := by
  simp only [Interp.opval, spinPair, List.map_map]
  rfl

/-- The values of the consistent, spin-conserving labelings add up to the value of the spin-orbital product. -/
theorem spin_value (I : Interp O R M) (orb : Orbitals O) (hI : I.SpinConserving orb) (ts : List Tensor) (op : SqOp) (c : ℚ)
    (hal : ∀ i ∈ labelsOf ts op, i.isBeta = false) (choices : List (Finset Index)) (hn : choices.Nodup)
    (hc : ∀ B, B ∈ choices ↔ IsSpinLabeling ts op B) :
    (choices.map fun B => I.value orb c (ts.map (spinTensor B)) (spinPair B op)).sum = I.value orb.spinOrbital c ts op := by
  set L := labelsOf ts op with hL
  let f : (Index → O) → M := fun σ => I.pval σ ts • I.opval σ op
  let beta : (Index → O) → Finset Index := fun σ => L.filter fun i => orb.spin (σ i) = true
  have hfc : ∀ σ τ : Index → O, (∀ i ∈ L, σ i = τ i) → f σ = f τ := fun σ τ h => I.summand_congr h
  have hbc : ∀ σ τ : Index → O, (∀ i ∈ L, σ i = τ i) → beta σ = beta τ := by
    intro σ τ h
    exact Finset.filter_congr fun i hi => by rw [h i hi]
  -- one labeling
  have hone : ∀ B ⊆ L, I.value orb c (ts.map (spinTensor B)) (spinPair B op) =
      algebraMap ℚ R c • ∑ σ ∈ orb.spinOrbital.assignments L, if beta (extendTo σ) = B then f (extendTo σ) else 0 := by
    intro B hB
    unfold Interp.value
    rw [labelsOf_spin, ← hL]
    congr 1
    rw [sum_pullback₂ orb.spinOrbital orb L (spinLabel B) (fun σ => if beta σ = B then f σ else 0)]
    · refine Finset.sum_congr rfl fun τ hτ => ?_
      have hb : beta (fun i => extendTo τ (spinLabel B i)) = B := by
        ext i
        simp only [beta, Finset.mem_filter]
        constructor
        · rintro ⟨hi, h⟩
          have := (Orbitals.extend_in hτ (Finset.mem_image_of_mem _ hi)).2
          rw [h] at this
          exact of_decide_eq_true this
        · intro hi
          refine ⟨hB hi, ?_⟩
          have := (Orbitals.extend_in hτ (Finset.mem_image_of_mem (spinLabel B) (hB hi))).2
          rw [← this]
          exact decide_eq_true hi
      simp only [hb, if_true, f]
      rw [pval_spin, opval_spin]
    · intro σ τ h
      simp only [hbc σ τ h, hfc σ τ h]
    · rintro i hi o ⟨h1, -⟩
      exact ⟨h1, hal i hi⟩
    · intro σ hσ hne
      have hb : beta σ = B := by
        by_contra h
        exact hne (by simp only [if_neg h])
      refine ⟨fun i hi => ⟨(hσ i hi).1, ?_⟩, fun i hi j hj e => by rw [spinLabel_inj (hal i hi) (hal j hj) e]⟩
      show decide (i ∈ B) = orb.spin (σ i)
      rw [← hb, Bool.eq_iff_iff, decide_eq_true_eq]
      simp [beta, hi]
  -- assignments that violate spin conservation do not contribute
  have hcount : ∀ (σ : Index → O) (l : List Index), (∀ i ∈ l, i ∈ L) → (l.map σ).countP orb.spin = l.countP fun i => decide (i ∈ beta σ) := by
    intro σ l hl
    rw [List.countP_map]
    refine List.countP_congr fun i hi => ?_
    simp [beta, hl i hi]
  have hzero : ∀ σ : Index → O, f σ ≠ 0 → beta σ ∈ choices := by
    intro σ hne
    rw [hc]
    refine ⟨Finset.filter_subset _ _, ?_, ?_⟩
    · by_contra h
      apply hne
      have : I.opval σ op = 0 := by
        apply hI.op
        rw [hcount σ _ fun i hi => mem_labelsOf.2 (mem_labelList.2 (Or.inl (List.mem_append_left _ hi))),
          hcount σ _ fun i hi => mem_labelsOf.2 (mem_labelList.2 (Or.inl (List.mem_append_right _ hi)))]
        exact h
      simp only [f, this, smul_zero]
    · intro x hx
      by_contra h
      apply hne
      have h0 : I.tval σ x = 0 := by
        apply hI.tensor
        rw [hcount σ _ fun i hi => mem_labelsOf.2 (mem_labelList.2 (Or.inr ⟨x, hx, List.mem_append_left _ hi⟩)),
          hcount σ _ fun i hi => mem_labelsOf.2 (mem_labelList.2 (Or.inr ⟨x, hx, List.mem_append_right _ hi⟩))]
        exact h
      have : I.pval σ ts = 0 := List.prod_eq_zero (List.mem_map.2 ⟨x, hx, h0⟩)
      simp only [f, this, zero_smul]
  have hmap : (choices.map fun B => I.value orb c (ts.map (spinTensor B)) (spinPair B op)) =
      choices.map fun B => algebraMap ℚ R c • ∑ σ ∈ orb.spinOrbital.assignments L, if beta (extendTo σ) = B then f (extendTo σ) else 0 :=
    List.map_congr_left fun B hB => hone B ((hc B).1 hB).1
  rw [hmap, ← List.sum_toFinset _ hn, ← Finset.smul_sum, Finset.sum_comm]
  unfold Interp.value
  rw [← hL]
  congr 1
  refine Finset.sum_congr rfl fun σ _ => ?_
  rw [Finset.sum_ite_eq]
  split_ifs with hm
  · rfl
  · by_contra hne
    apply hm
    rw [List.mem_toFinset]
    exact hzero _ fun e => hne e.symm

end

theorem Separated.spin {core : Bool} {ts : List Tensor} {op : SqOp} (h : Separated core ts op) (B : Finset Index)
    (hal : ∀ i ∈ labelsOf ts op, i.isBeta = false) : Separated core (ts.map (spinTensor B)) (spinPair B op) :=
  h.follow (f := spinLabel B) (fun _ _ => ⟨rfl, rfl, .rfl, .rfl⟩) .rfl .rfl (fun i hi j hj e => spinLabel_inj (hal i hi) (hal j hj) e)
    fun _ _ _ _ _ => rfl

end Dsrg
