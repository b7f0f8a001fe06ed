import Verif.Lemmas.ConnectedAlgebra
import Verif.Lemmas.WickBch
import Verif.Spec.ConnectedProducts

/-!
The connected contractions of a product of terms, as a linear function of the product in the free algebra of operator strings.
-/

namespace Dsrg

/-! ### Connected sets of contractions -/

theorem involves_iff {ops : List SqOp} (h : GoodOps ops) {maxCu : Int} {t : Tensor} (ht : Elementary ops maxCu t) {k : Nat} :
    Involves ops k t ↔ ∃ x ∈ contractionWord t, stringOf ops x = k := by
  have hp := proper_of_elementary h ht
  constructor
  · rintro ⟨op, hk, ⟨i, hi, hi'⟩ | ⟨i, hi, hi'⟩⟩
    · exact ⟨(true, i), (mem_contractionWord hp).2 (Or.inl ⟨rfl, hi⟩), stringOf_upper h hk hi'⟩
    · exact ⟨(false, i), (mem_contractionWord hp).2 (Or.inr ⟨rfl, hi⟩), stringOf_lower h hk hi'⟩
  · rintro ⟨⟨b, i⟩, hx, rfl⟩
    rcases (mem_contractionWord hp).1 hx with ⟨e, hi⟩ | ⟨e, hi⟩
    · obtain ⟨op, hop, hi'⟩ := List.mem_flatMap.1 (hp.upperSub i hi)
      obtain ⟨k, hk⟩ := List.mem_iff_getElem?.1 hop
      simp only at e; subst e
      rw [stringOf_upper h hk hi']
      exact ⟨op, hk, Or.inl ⟨i, hi, hi'⟩⟩
    · obtain ⟨op, hop, hi'⟩ := List.mem_flatMap.1 (hp.lowerSub i hi)
      obtain ⟨k, hk⟩ := List.mem_iff_getElem?.1 hop
      simp only at e; subst e
      rw [stringOf_lower h hk hi']
      exact ⟨op, hk, Or.inr ⟨i, hi, hi'⟩⟩

theorem Involves.lt {ops : List SqOp} {k : Nat} {t : Tensor} (h : Involves ops k t) : k < ops.length := by
  obtain ⟨op, hk, -⟩ := h
  exact (List.getElem?_eq_some_iff.1 hk).1

theorem connectsAll_iff {ops : List SqOp} (h : GoodOps ops) {maxCu : Int} {ts : List Tensor} (hts : ∀ t ∈ ts, Elementary ops maxCu t) :
    ConnectsAll ops ts ↔ ConnB (stringOf ops) (List.range ops.length) (ts.map contractionWord) := by
  classical
  constructor
  · intro hc S hS hex k hk
    by_contra hkS
    obtain ⟨k0, hk0, hk0S⟩ := hex
    rw [List.mem_range] at hk hk0
    obtain ⟨t, ht, ⟨k1, hk1, hi1⟩, k2, hk2, hi2⟩ := hc ((Finset.range ops.length).filter (· ∈ S)) ⟨k0, hk0, by simp [hk0, hk0S]⟩ ⟨k, hk, by simp [hkS]⟩
    obtain ⟨x1, hx1, rfl⟩ := (involves_iff h (hts t ht)).1 hi1
    have hlt := hi2.lt
    obtain ⟨x2, hx2, rfl⟩ := (involves_iff h (hts t ht)).1 hi2
    have hm := hS _ (List.mem_map_of_mem ht) x1 hx1 x2 hx2 (Finset.mem_filter.1 hk1).2
    exact hk2 (Finset.mem_filter.2 ⟨Finset.mem_range.2 hlt, hm⟩)
  · intro hc S ⟨k1, hk1, hk1S⟩ ⟨k2, hk2, hk2S⟩
    by_contra hno
    push Not at hno
    refine hk2S (hc (S : Set ℕ) ?_ ⟨k1, List.mem_range.2 hk1, hk1S⟩ k2 (List.mem_range.2 hk2))
    intro b hb x hx y hy hxS
    obtain ⟨t, ht, rfl⟩ := List.mem_map.1 hb
    by_contra hyS
    exact hno t ht ⟨_, hxS, (involves_iff h (hts t ht)).2 ⟨x, hx, rfl⟩⟩ _ hyS ((involves_iff h (hts t ht)).2 ⟨y, hy, rfl⟩)

theorem length_contractionWord {ops : List SqOp} (h : GoodOps ops) {maxCu : Int} {t : Tensor} (ht : Elementary ops maxCu t) :
    (contractionWord t).length = 2 * t.upper.size := by
  have hs := (proper_of_elementary h ht).size
  unfold contractionWord Indices.size
  split <;> simp <;> omega

theorem pairConnected_iff {ops : List SqOp} (h : GoodOps ops) {maxCu : Int} {ts : List Tensor} (hts : ∀ t ∈ ts, Elementary ops maxCu t) :
    (ConnectsAll ops ts ∧ HasPair ts) ↔ PairConnB (stringOf ops) (List.range ops.length) (ts.map contractionWord) := by
  unfold PairConnB HasPair
  rw [connectsAll_iff h hts]
  refine and_congr Iff.rfl ?_
  constructor
  · rintro ⟨t, ht, e⟩
    exact ⟨_, List.mem_map_of_mem ht, by rw [length_contractionWord h (hts t ht), e]⟩
  · rintro ⟨b, hb, e⟩
    obtain ⟨t, ht, rfl⟩ := List.mem_map.1 hb
    rw [length_contractionWord h (hts t ht)] at e
    exact ⟨t, ht, by omega⟩

theorem Allowed.widenPair {ops : List SqOp} {maxCu maxOpen minOpen : Int}
    (hmax : (nOperators ops : Int) ≤ maxOpen + 2) {ts : List Tensor} (hp : HasPair ts) :
    Allowed ops maxCu maxOpen minOpen ts ↔ Allowed ops maxCu (nOperators ops) minOpen ts := by
  have h1 : 1 ≤ (ts.map fun t => t.upper.size).sum := by
    obtain ⟨t, ht, e⟩ := hp
    have := List.single_le_sum (l := ts.map fun t => t.upper.size) (fun _ _ => Nat.zero_le _) _ (List.mem_map_of_mem ht)
    omega
  constructor
  · intro h
    exact ⟨h.nodup, h.elementary, h.share, h.window.1, by omega⟩
  · intro h
    exact ⟨h.nodup, h.elementary, h.share, h.window.1, by omega⟩

/-! ### The contractions for one assignment of orbitals to labels -/

section
variable {O R A : Type} [DecidableEq O] [CommRing R] [Ring A] [Algebra R A]

theorem tagWord_word (ls : List (List (Bool × Index))) : (tagWord (positional ls)).map (fun x => x.2.2) = ls.flatten := by
  unfold tagWord positional
  rw [List.flatMap_map, List.map_flatMap]
  conv_rhs => rw [← List.zipIdx_map_fst 0 ls, ← List.flatMap_def]
  refine List.flatMap_congr fun x _ => ?_
  rw [tagAt, List.map_map]
  exact List.zipIdx_map_fst 0 x.1

theorem tagWord_letters {L L' : Type} (f : L → L') (ls : List (List L)) :
    (tagWord (positional ls)).map (fun x => (x.1, x.2.1, f x.2.2)) = tagWord (positional (ls.map (List.map f))) := by
  unfold tagWord positional
  rw [List.zipIdx_map, List.flatMap_map, List.map_map, List.flatMap_map, List.map_flatMap]
  refine List.flatMap_congr fun x _ => ?_
  rw [tagAt, List.map_map]
  show List.map _ _ = List.map (fun y => (x.2, y.2, y.1)) (x.1.map f).zipIdx
  rw [List.zipIdx_map, List.map_map]
  rfl

theorem connected_pointwise {ops : List SqOp} (h : GoodOps ops) {field : Bool × O → A} (hf : Fermions field) {I : Interp O R A}
    (hno : I.NormalOrdered field) (hI : I.Antisymmetric) {orb : Orbitals O} (hph : I.Physical orb)
    (hac : ∀ name (u l : List O), u.length ≠ 1 → (∃ o ∈ u ++ l, orb.elem o ≠ .active) → I.tensor .cumulant name u l = 0)
    {maxCu maxOpen minOpen : Int} (hcu : I.CumulantsUpTo maxCu) (hmin : minOpen ≤ 0) (hmax : (nOperators ops : Int) ≤ maxOpen + 2)
    {σ : Index → O} (hσ : ∀ x ∈ productWord ops, orb.In x.2.space (σ x.2))
    {cs : List (List Tensor)} {sign : List Tensor → Int} {rest : List Tensor → SqOp} (h1 : cs.Pairwise (fun a b => ¬ a.Perm b))
    (h2 : ∀ ts, (∃ c ∈ cs, c.Perm ts) ↔ Allowed ops maxCu maxOpen minOpen ts ∧ ConnectsAll ops ts ∧ HasPair ts)
    (h3 : ∀ c ∈ cs, IsResult ops c (sign c) (rest c)) :
    (cs.map fun c => (sign c : R) • I.pval σ c • I.opval σ (rest c)).sum =
      stringsSum I.contraction (normalOrder field I.contraction) (PairConnB Prod.fst) (ops.map fun op => (stringWord op).map (letterAt σ)) := by
  classical
  have hkey : ∀ x ∈ tagWord (positional (ops.map stringWord)), stringOf ops x.2.2 = x.1 := by
    intro x hx
    obtain ⟨q, hq, hx⟩ := List.mem_flatMap.1 hx
    obtain ⟨y, hy, rfl⟩ := List.mem_map.1 hq
    have hy := List.mem_zipIdx_iff_getElem?.1 (show (y.1, y.2) ∈ (ops.map stringWord).zipIdx from hy)
    rw [tagAt_key hx]
    rw [List.getElem?_map, Option.map_eq_some_iff] at hy
    obtain ⟨op, hop, e⟩ := hy
    refine stringOf_eq h hop ?_
    rw [e]
    obtain ⟨z, hz, rfl⟩ := List.mem_map.1 hx
    have := List.mem_map_of_mem (f := Prod.fst) hz
    rw [List.zipIdx_map_fst] at this
    exact this
  have hlt : ∀ x ∈ tagWord (positional (ops.map stringWord)), x.1 ∈ List.range ops.length := fun x hx => by
    have := positional_key hx
    simpa using this
  have r := rows_pointwise h hf hno hI hph hac hcu hmin (maxOpen := nOperators ops) (Int.le_refl _) hσ
    (P := PairConnB (stringOf ops) (List.range ops.length)) (Q := fun ts => ConnectsAll ops ts ∧ HasPair ts)
    (fun B B' C hp hfa => pairConnB_key (blocksKey_eq_iff.2 ⟨B', hp, hfa⟩))
    (fun ts hts => pairConnected_iff h hts.elementary) h1
    (fun ts => (h2 ts).trans ⟨fun ⟨a, b, c⟩ => ⟨(Allowed.widenPair hmax c).1 a, b, c⟩, fun ⟨a, b, c⟩ => ⟨(Allowed.widenPair hmax c).2 a, b, c⟩⟩) h3
    (blockK I.contraction (stringOf ops) (letterAt σ)) (fun b hb => if_neg (by push Not; exact hb)) (fun b hb => if_pos hb)
  have e0 : (fun w : List (Bool × Index) => normalOrder (fun x => field (letterAt σ x)) (fun b => I.contraction (b.map (letterAt σ))) w) =
      fun w => normalOrder field I.contraction (w.map (letterAt σ)) := by
    funext w
    exact (normalOrder_map field I.contraction _ w).symm
  have e1 : (cs.map fun c => (sign c : R) • I.pval σ c • I.opval σ (rest c)).sum =
      rowsSum (blockK I.contraction (stringOf ops) (letterAt σ)) (fun r => normalOrder field I.contraction (r.map (letterAt σ)))
        (PairConnB (stringOf ops) (List.range ops.length)) (productWord ops) := by
    rw [r, ← e0]
    unfold rowsSum
    congr!
  rw [e1]
  have hw : productWord ops = (tagWord (positional (ops.map stringWord))).map fun x => x.2.2 := by
    rw [tagWord_word, ← List.flatMap_def]; rfl
  have e2 := rowsSum_relabel I.contraction (normalOrder field I.contraction) (key := Prod.fst) (key' := stringOf ops)
    (letter := fun x : ℕ × ℕ × (Bool × Index) => letterAt σ x.2.2) (letter' := letterAt σ) (fun x => x.2.2) id (keys := List.range ops.length)
    (w := tagWord (positional (ops.map stringWord))) (P := PairConnB Prod.fst (List.range ops.length))
    (P' := PairConnB (stringOf ops) (List.range ops.length))
    (fun x hx => ⟨hkey x hx, hlt x hx⟩) (fun _ _ _ _ e => e) (fun _ _ => rfl)
    (fun B hB => pairConnB_relabel _ id (fun b hb x hx => ⟨hkey x (hB b hb x hx), hlt x (hB b hb x hx)⟩) (fun _ _ _ _ e => e) (by simp))
  have e3 := rowsSum_relabel I.contraction (normalOrder field I.contraction) (key := Prod.fst) (key' := Prod.fst)
    (letter := fun x : ℕ × ℕ × (Bool × Index) => letterAt σ x.2.2) (letter' := fun x : ℕ × ℕ × (Bool × O) => x.2.2)
    (fun x => (x.1, x.2.1, letterAt σ x.2.2)) id (keys := List.range ops.length)
    (w := tagWord (positional (ops.map stringWord))) (P := PairConnB Prod.fst (List.range ops.length))
    (P' := PairConnB Prod.fst (List.range ops.length))
    (fun x hx => ⟨rfl, hlt x hx⟩) (fun _ _ _ _ e => e) (fun _ _ => rfl)
    (fun B hB => pairConnB_relabel _ id (fun b hb x hx => ⟨rfl, hlt x (hB b hb x hx)⟩) (fun _ _ _ _ e => e) (by simp))
  rw [hw, e2, ← e3, tagWord_letters, List.map_map]
  unfold stringsSum
  simp only [List.length_map]
  rfl

end

/-! ### Products of terms -/

section
variable {O R A : Type} [Fintype O] [DecidableEq O] [Inhabited O] [CommRing R] [Algebra ℚ R] [Ring A] [Algebra R A]

/-- The interpretation in which operator strings do not commute and are not contracted. -/
noncomputable def Interp.free (I : Interp O R A) : Interp O R (MonoidAlgebra R (FreeMonoid (List (Bool × O)))) where
  tensor := I.tensor
  op := fun u l => stringProduct [u.map (fun x => (true, x)) ++ l.reverse.map fun x => (false, x)]

omit [Fintype O] [DecidableEq O] [Inhabited O] [Algebra ℚ R] in
theorem free_opval (I : Interp O R A) (σ : Index → O) (op : SqOp) :
    I.free.opval σ op = stringProduct [(stringWord op).map (letterAt σ)] := by
  unfold Interp.opval Interp.free stringWord
  simp only [List.map_append, List.map_map, List.map_reverse]
  rfl

omit [Fintype O] [DecidableEq O] [Inhabited O] [Algebra ℚ R] in
theorem free_pval (I : Interp O R A) (σ : Index → O) (ts : List Tensor) : I.free.pval σ ts = I.pval σ ts := rfl

/-- The connected contractions of a product of terms, when nothing but uncontracted products is cut off. -/
theorem IsConnectedContraction.eq_linearize {terms : List Term} (hp : properOps terms = terms.map Term.sqOp) (hG : GoodOps (terms.map Term.sqOp))
    (hd : terms.Pairwise DisjointLabels) {field : Bool × O → A} (hf : Fermions field) {I : Interp O R A} (hno : I.NormalOrdered field)
    (hI : I.Antisymmetric) {orb : Orbitals O} (hph : I.Physical orb) (hac : I.ActiveCumulants orb) {maxCu maxOpen minOpen : Int}
    (hcu : I.CumulantsUpTo maxCu) (hmin : minOpen ≤ 0) (hmax : (nOperators (terms.map Term.sqOp) : Int) ≤ maxOpen + 2) {V : A}
    (hV : IsConnectedContraction I orb (terms.map Term.coeff).prod (allTensors terms) (terms.map Term.sqOp) maxCu maxOpen minOpen V) :
    V = linearize (stringsSum I.contraction (normalOrder field I.contraction) (PairConnB Prod.fst))
      (terms.map fun t => I.free.value orb t.coeff t.tensors t.sqOp).prod := by
  obtain ⟨cs, sign, rest, h1, h2, h3, rfl⟩ := hV
  have hl : ∀ c ∈ cs, labelsOf (allTensors terms ++ c) (rest c) = allLabels terms := fun c hc => by
    have := h3 c hc
    rw [← hp] at this
    exact this.labels
  have e : ∀ cs' : List (List Tensor), (∀ c ∈ cs', labelsOf (allTensors terms ++ c) (rest c) = allLabels terms) →
      (cs'.map fun c => I.value orb (sign c * (terms.map Term.coeff).prod) (allTensors terms ++ c) (rest c)).sum =
      (algebraMap ℚ R (terms.map Term.coeff).prod) • ∑ σ ∈ orb.assignments (allLabels terms), I.pval (extendTo σ) (allTensors terms) •
        (cs'.map fun c => (sign c : R) • I.pval (extendTo σ) c • I.opval (extendTo σ) (rest c)).sum := by
    intro cs' h
    have := sum_rows_value I orb (terms.map Term.coeff).prod (allTensors terms) (allLabels terms)
      (cs'.map fun c => (sign c, c, rest c)) (by simpa using h)
    simpa [Interp.rowsValue, Function.comp_def] using this
  rw [e cs hl, prod_value I.free orb hd, map_smul, map_sum]
  congr 1
  refine Finset.sum_congr rfl fun σ hσ => ?_
  rw [map_smul, free_pval, connected_pointwise hG hf hno hI hph hac hcu hmin hmax ?_ h1 h2 h3]
  · congr 1
    simp only [free_opval]
    have := stringProduct_list (R := R) ((terms.map Term.sqOp).map fun op => (stringWord op).map (letterAt (extendTo σ)))
    rw [List.map_map, List.map_map] at this
    simp only [Function.comp_def] at this
    rw [this, linearize_product, List.map_map]
  · intro x hx
    refine extendTo_in orb hσ _ ?_
    unfold allLabels
    rw [← hp] at hx
    exact List.mem_toFinset.2 (List.mem_append_right _ ((mem_operatorLabels_word _).2 ⟨x, hx, rfl⟩))

/-- The connected contractions of a product of symbols. -/
theorem IsConnectedWordValue.eq_linearize {I : Interp O R A} {orb : Orbitals O} {singleRef : Bool} {maxCu maxOpen minOpen : Int} {w : List OpName} {V : A}
    (hb : ∀ x ∈ w, 1 ≤ x.bodies) {field : Bool × O → A} (hf : Fermions field) (hno : I.NormalOrdered field) (hI : I.Antisymmetric)
    (hph : I.Physical orb) (hac : I.ActiveCumulants orb) (hcu : I.CumulantsUpTo maxCu) (hmin : minOpen ≤ 0)
    (hmax : ((2 * (w.map OpName.bodies).sum : Nat) : Int) ≤ maxOpen + 2) (h : IsConnectedWordValue I orb singleRef maxCu maxOpen minOpen w V) :
    V = linearize (stringsSum I.contraction (normalOrder field I.contraction) (PairConnB Prod.fst)) (w.map (I.free.symbolOperator orb singleRef)).prod := by
  obtain ⟨terms, h1, h2, h3⟩ := h
  have hg : ∀ t ∈ terms, GoodTerm t := by
    intro t ht
    obtain ⟨x, -, h⟩ := forall₂_mem_right h1 ht
    exact (isFactor_operator h orb I).1
  have hp : properOps terms = terms.map Term.sqOp := by
    unfold properOps
    rw [List.filter_eq_self]
    intro op hop
    obtain ⟨t, ht, rfl⟩ := List.mem_map.1 hop
    obtain ⟨x, hx, h⟩ := forall₂_mem_right h1 ht
    have e := (isFactor_operator h orb I).2.2.1
    have := hb x hx
    simp only [decide_eq_true_eq]
    exact Or.inl (List.ne_nil_of_length_pos (by omega))
  have hsum : nOperators (terms.map Term.sqOp) = 2 * (w.map OpName.bodies).sum := by
    clear h2 h3 hg hp hb hmax
    unfold nOperators
    induction h1 with
    | nil => rfl
    | cons h _ ih =>
      rw [List.map_cons, List.map_cons, List.sum_cons, ih, List.map_cons, List.sum_cons]
      have := (isFactor_operator h orb I).2.1
      unfold Term.nOpen at this
      unfold Indices.size
      omega
  have hv : terms.map (fun t => I.free.value orb t.coeff t.tensors t.sqOp) = w.map (I.free.symbolOperator orb singleRef) := by
    clear h2 h3 hg hp hb hmax hsum
    induction h1 with
    | nil => rfl
    | cons h _ ih => rw [List.map_cons, ih, List.map_cons, (isFactor_operator h orb I.free).2.2.2]
  rw [← hv]
  exact IsConnectedContraction.eq_linearize (maxOpen := maxOpen) hp (ordinary_of_good hg h2).ops h2 hf hno hI hph hac hcu hmin (by rw [hsum]; exact hmax) h3

/-! ### The free interpretation of the Hamiltonian and the amplitudes -/

omit [Fintype O] [Inhabited O] [Algebra ℚ R] in
theorem evaluate_op {I : Interp O R A} {field : Bool × O → A} (hno : I.NormalOrdered field) (u l : List O) :
    evaluate (normalOrder field I.contraction) (I.free.op u l) = I.op u l := by
  unfold Interp.free
  simp only
  rw [evaluate_product, hno]
  simp

theorem evaluate_symbol {I : Interp O R A} {field : Bool × O → A} (hno : I.NormalOrdered field) (orb : Orbitals O) (singleRef : Bool) (x : OpName) :
    evaluate (normalOrder field I.contraction) (I.free.symbolOperator orb singleRef x) = I.symbolOperator orb singleRef x := by
  have ht : I.free.tensor = I.tensor := rfl
  cases x <;> simp only [Interp.symbolOperator, Interp.hamiltonianPart, Interp.excitation, Interp.deexcitation, map_smul, map_sum, evaluate_op hno, ht]

theorem symbol_span (I : Interp O R A) (orb : Orbitals O) (singleRef : Bool) (x : OpName) :
    I.free.symbolOperator orb singleRef x ∈ Submodule.span R ((fun s => (stringProduct [s] : MonoidAlgebra R (FreeMonoid (List (Bool × O))))) '' {s | 2 ∣ s.length}) := by
  have hop : ∀ {k : ℕ} (u l : Fin k → O), I.free.op (List.ofFn u) (List.ofFn l) ∈
      Submodule.span R ((fun s => (stringProduct [s] : MonoidAlgebra R (FreeMonoid (List (Bool × O))))) '' {s | 2 ∣ s.length}) := by
    intro k u l
    refine Submodule.subset_span ⟨_, ?_, rfl⟩
    simp only [Set.mem_ofPred_eq, List.length_append, List.length_map, List.length_reverse, List.length_ofFn]
    omega
  cases x <;> simp only [Interp.symbolOperator, Interp.hamiltonianPart, Interp.excitation, Interp.deexcitation] <;>
    exact Submodule.smul_mem _ _ (Submodule.sum_mem _ fun _ _ => Submodule.sum_mem _ fun _ _ => Submodule.smul_mem _ _ (hop _ _))

end

end Dsrg
