import Verif.Lemmas.WickBch
import Verif.Lemmas.ConnectedValue
import Verif.Spec.OpenWindow

/-!
Contractions with a limited number of open operators.
-/

namespace Dsrg

section
variable {α R A B : Type} [CommRing R] [Ring A] [Algebra R A] [AddCommGroup B] [Module R B]

/-- Rearranged normal-ordered strings agree up to a sign. -/
theorem normalOrder_perm {field : α → A} {contr : List α → R} (h : ContractionRules field contr) {w v : List α} (hp : w.Perm v) :
    ∀ pre, ∃ s : ℤ, normalOrder field contr (pre ++ w) = s • normalOrder field contr (pre ++ v) := by
  induction hp with
  | nil => exact fun pre => ⟨1, by simp⟩
  | cons x _ ih =>
    intro pre
    obtain ⟨s, hs⟩ := ih (pre ++ [x])
    exact ⟨s, by simpa using hs⟩
  | swap x y l =>
    intro pre
    exact ⟨-1, by rw [normalOrder_swap h, neg_one_smul]⟩
  | trans _ _ ih1 ih2 =>
    intro pre
    obtain ⟨s, hs⟩ := ih1 pre
    obtain ⟨t, ht⟩ := ih2 pre
    exact ⟨s * t, by rw [hs, ht, mul_smul]⟩

end

section
variable {O R A B : Type} [DecidableEq O] [CommRing R] [Ring A] [Algebra R A] [AddCommGroup B] [Module R B]

theorem word_perm (w : List (Bool × O)) :
    w.Perm ((orbitalsOf true w).map (fun x => (true, x)) ++ (orbitalsOf false w).reverse.reverse.map fun x => (false, x)) := by
  rw [List.reverse_reverse]
  induction w with
  | nil => exact List.Perm.refl _
  | cons x w ih =>
    obtain ⟨b, o⟩ := x
    cases b
    · rw [orbitalsOf_cons, orbitalsOf_cons]
      simp only [Bool.false_eq_true, if_false, if_true, List.map_cons]
      exact (ih.cons _).trans List.perm_middle.symm
    · rw [orbitalsOf_cons, orbitalsOf_cons]
      simp only [reduceCtorEq, if_false, if_true, List.map_cons, List.cons_append]
      exact ih.cons _

/-- Ignored words. -/
theorem Interp.Ignores.word {I : Interp O R A} {f : A →ₗ[R] B} {maxOpen minOpen : Int} (hi : I.Ignores f maxOpen minOpen) {field : Bool × O → A}
    (rules : ContractionRules field I.contraction) (hno : I.NormalOrdered field) {w : List (Bool × O)}
    (hw : ¬ (minOpen ≤ (w.length : Int) ∧ (w.length : Int) ≤ maxOpen)) : f (normalOrder field I.contraction w) = 0 := by
  obtain ⟨s, hs⟩ := normalOrder_perm rules (word_perm w) []
  rw [List.nil_append, List.nil_append, ← hno] at hs
  rw [hs, map_zsmul, hi _ _ ?_, smul_zero]
  rw [List.length_reverse, orbitalsOf_length]
  exact hw

end

section
variable {O R A B : Type} [Fintype O] [DecidableEq O] [Inhabited O] [CommRing R] [Algebra ℚ R] [Ring A] [Algebra R A] [AddCommGroup B] [Module R B]

omit [Fintype O] [Inhabited O] [Algebra ℚ R] in
/-- The contractions of a product of strings with a limited number of open operators, for one assignment of orbitals to labels. -/
theorem window_pointwise {ops : List SqOp} (h : GoodOps ops) {field : Bool × O → A} (hf : Fermions field) {I : Interp O R A}
    (hno : I.NormalOrdered field) (hI : I.Antisymmetric) {orb : Orbitals O} (hph : I.Physical orb)
    (hac : ∀ name (u l : List O), u.length ≠ 1 → (∃ o ∈ u ++ l, orb.elem o ≠ .active) → I.tensor .cumulant name u l = 0)
    {maxCu maxOpen minOpen : Int} (hcu : I.CumulantsUpTo maxCu) {f : A →ₗ[R] B} (hi : I.Ignores f maxOpen minOpen)
    {σ : Index → O} (hσ : ∀ x ∈ productWord ops, orb.In x.2.space (σ x.2))
    {cs : List (List Tensor)} {sign : List Tensor → Int} {rest : List Tensor → SqOp} (h1 : cs.Pairwise (fun a b => ¬ a.Perm b))
    (h2 : ∀ ts, (∃ c ∈ cs, c.Perm ts) ↔ Allowed ops maxCu maxOpen minOpen ts) (h3 : ∀ c ∈ cs, IsResult ops c (sign c) (rest c)) :
    f (cs.map fun c => (sign c : R) • I.pval σ c • I.opval σ (rest c)).sum = f (ops.map (I.opval σ)).prod := by
  classical
  have hole : ∀ a b, I.tensor .hole ['C'] [a] [b] = (if a = b then 1 else 0) - I.tensor .cumulant ['L'] [a] [b] := hph.hole _
  have rules0 := contraction_rules hf hI hole
  have rules := rules0.map (letterAt σ)
  let N := normalOrder (fun x => field (letterAt σ x)) (fun b => I.contraction (b.map (letterAt σ)))
  let K : List (Bool × Index) → R := fun b =>
    if ∃ x ∈ b, ∃ y ∈ b, stringOf ops x ≠ stringOf ops y then I.contraction (b.map (letterAt σ)) else 0
  have hin : ∀ b, (∀ x ∈ b, ∀ y ∈ b, stringOf ops x = stringOf ops y) → K b = 0 := fun b hb => if_neg (by push Not; exact hb)
  have hout : ∀ b, (∃ x ∈ b, ∃ y ∈ b, stringOf ops x ≠ stringOf ops y) → K b = I.contraction (b.map (letterAt σ)) := fun b hb => if_pos hb
  have e1 : (ops.map (I.opval σ)).prod = contractionSum K (productWord ops).length (productWord ops) N := by
    have hw := wick rules (stringOf ops) K (ops.map stringWord) (keyed_strings h) hin hout (productWord ops).length
      (by rw [← List.flatMap_def]; exact Nat.le_refl _)
    rw [← List.flatMap_def] at hw
    refine Eq.trans ?_ hw
    rw [List.map_map]
    congr 1
    exact List.map_congr_left fun op _ => opval_eq hno σ op
  have hlen : ∀ ts : List Tensor, (∀ t ∈ ts, Elementary ops maxCu t) → (ts.map contractionWord).flatten.length = 2 * (ts.map fun t => t.upper.size).sum := by
    intro ts hts
    induction ts with
    | nil => rfl
    | cons t ts ih =>
      rw [List.map_cons, List.flatten_cons, List.length_append, ih fun t ht => hts t (List.mem_cons_of_mem _ ht), List.map_cons, List.sum_cons]
      have pt := proper_of_elementary h (hts t List.mem_cons_self)
      rw [contractionWord_eq pt, pt.length_legs]
      have : t.upper.size = t.upper.list.length := rfl
      omega
  let P : List (List (Bool × Index)) → Prop := fun bs =>
    minOpen ≤ (nOperators ops : Int) - bs.flatten.length ∧ (nOperators ops : Int) - bs.flatten.length ≤ maxOpen
  have hP : ∀ bs bs' cs : List (List (Bool × Index)), bs'.Perm cs → List.Forall₂ List.Perm bs bs' → (P bs ↔ P cs) := by
    intro bs bs' cs hp hfa
    have : bs.flatten.length = cs.flatten.length := by
      rw [← (List.Perm.flatten hp).length_eq]
      clear hp
      induction hfa with
      | nil => rfl
      | cons h _ ih => simp [h.length_eq]; simpa using ih
    simp only [P, this]
  have r := rows_pointwise h hf hno hI hph hac hcu (minOpen := 0) (Int.le_refl _) (maxOpen := nOperators ops) (Int.le_refl _) hσ
    (P := P) (Q := fun ts => P (ts.map contractionWord)) hP (fun _ _ => Iff.rfl) h1 (fun ts => ?_) h3 K hin hout
  · rw [r, e1, contractionSum_eq]
    have hrow : ∀ c ∈ contractionRows (productWord ops).length (productWord ops), (c.2.1.flatten ++ c.2.2).Perm (productWord ops) :=
      fun c hc => (rows_blocks (Nat.le_refl _) hc).2
    generalize contractionRows (productWord ops).length (productWord ops) = rows at hrow
    induction rows with
    | nil => rfl
    | cons c rows ih =>
      have ih' := ih fun c hc => hrow c (List.mem_cons_of_mem _ hc)
      rw [List.filter_cons]
      split_ifs with hc
      · rw [List.map_cons, List.sum_cons, map_add, ih', List.map_cons, List.sum_cons, map_add]
      · rw [ih', List.map_cons, List.sum_cons, map_add]
        have : f (N c.2.2) = 0 := by
          show f (normalOrder _ _ _) = 0
          rw [← normalOrder_map field I.contraction (letterAt σ)]
          refine hi.word rules0 hno ?_
          have hl := (hrow c List.mem_cons_self).length_eq
          rw [length_productWord, List.length_append] at hl
          have hc : ¬ P c.2.1 := by simpa using hc
          simp only [P] at hc
          rw [List.length_map]
          omega
        show _ = f (c.1 • (c.2.1.map K).prod • N c.2.2) + _
        rw [map_zsmul, map_smul, this, smul_zero, smul_zero, zero_add]
  · rw [h2]
    constructor
    · intro ha
      refine ⟨⟨ha.nodup, ha.elementary, ha.share, ?_⟩, ?_⟩
      · obtain ⟨c, hc, hp⟩ := (h2 ts).2 ha
        have hl := (h3 c hc).word.length_eq
        rw [length_productWord, List.length_append, List.flatMap_def, (List.Perm.flatten (hp.map contractionWord)).length_eq, hlen ts ha.elementary] at hl
        omega
      · show P _
        simp only [P]
        rw [hlen ts ha.elementary]
        have := ha.window
        omega
    · rintro ⟨ha, hb⟩
      simp only [P] at hb
      rw [hlen ts ha.elementary] at hb
      exact ⟨ha.nodup, ha.elementary, ha.share, by omega⟩

/-- The contractions of a product with a limited number of open operators, seen by a map that ignores the other strings. -/
theorem IsContraction.window {terms : List Term} (hG : GoodOps (properOps terms)) (hd : terms.Pairwise DisjointLabels)
    {field : Bool × O → A} (hf : Fermions field) {I : Interp O R A} (hno : I.NormalOrdered field) (hI : I.Antisymmetric) {orb : Orbitals O}
    (hph : I.Physical orb) (hac : I.ActiveCumulants orb) {scale : ℚ} {maxCu maxOpen minOpen : Int} (hcu : I.CumulantsUpTo maxCu)
    {f : A →ₗ[R] B} (hi : I.Ignores f maxOpen minOpen) {V : A}
    (hV : IsContraction I orb (scale * (terms.map Term.coeff).prod) (allTensors terms) (properOps terms) maxCu maxOpen minOpen V) :
    f V = f ((algebraMap ℚ R scale) • (terms.map fun t => I.value orb t.coeff t.tensors t.sqOp).prod) := by
  obtain ⟨cs, sign, rest, h1, h2, h3, rfl⟩ := hV
  have hl : ∀ c ∈ cs, labelsOf (allTensors terms ++ c) (rest c) = allLabels terms := fun c hc => (h3 c hc).labels
  have e : ∀ cs' : List (List Tensor), (∀ c ∈ cs', labelsOf (allTensors terms ++ c) (rest c) = allLabels terms) →
      (cs'.map fun c => I.value orb (sign c * (scale * (terms.map Term.coeff).prod)) (allTensors terms ++ c) (rest c)).sum =
      (algebraMap ℚ R (scale * (terms.map Term.coeff).prod)) • ∑ σ ∈ orb.assignments (allLabels terms), I.pval (extendTo σ) (allTensors terms) •
        (cs'.map fun c => (sign c : R) • I.pval (extendTo σ) c • I.opval (extendTo σ) (rest c)).sum := by
    intro cs' h
    have := sum_rows_value I orb (scale * (terms.map Term.coeff).prod) (allTensors terms) (allLabels terms)
      (cs'.map fun c => (sign c, c, rest c)) (by simpa using h)
    simpa [Interp.rowsValue, Function.comp_def] using this
  rw [e cs hl, prod_value I orb hd, map_mul, mul_smul, map_smul, map_smul, map_smul, map_smul, map_sum, map_sum]
  congr 2
  refine Finset.sum_congr rfl fun σ hσ => ?_
  rw [map_smul, map_smul, ← prod_properOps hno, window_pointwise hG hf hno hI hph hac hcu hi ?_ h1 h2 h3]
  intro x hx
  refine extendTo_in orb hσ _ ?_
  unfold allLabels
  exact List.mem_toFinset.2 (List.mem_append_right _ ((mem_operatorLabels_word _).2 ⟨x, hx, rfl⟩))

theorem IsCommutatorValue.window {a b : Term} (hG : GoodOps [a.sqOp, b.sqOp]) (hd : DisjointLabels a b)
    {field : Bool × O → A} (hf : Fermions field) {I : Interp O R A} (hno : I.NormalOrdered field) (hI : I.Antisymmetric) {orb : Orbitals O}
    (hph : I.Physical orb) (hac : I.ActiveCumulants orb) {scale : ℚ} {maxCu maxOpen minOpen : Int} (hcu : I.CumulantsUpTo maxCu)
    {f : A →ₗ[R] B} (hi : I.Ignores f maxOpen minOpen) {F : A} (hF : IsCommutatorValue I orb scale maxCu maxOpen minOpen a b F) :
    f F = f ((algebraMap ℚ R scale) • (I.value orb a.coeff a.tensors a.sqOp * I.value orb b.coeff b.tensors b.sqOp -
      I.value orb b.coeff b.tensors b.sqOp * I.value orb a.coeff a.tensors a.sqOp)) := by
  have scalar : ∀ t : Term, t.sqOp.upper.list = [] ∧ t.sqOp.lower.list = [] → ∃ r : R, I.value orb t.coeff t.tensors t.sqOp = r • (1 : A) := by
    intro t ht
    unfold Interp.value
    simp only [opval_empty hno _ ht.1 ht.2]
    rw [← Finset.sum_smul, ← mul_smul]
    exact ⟨_, rfl⟩
  by_cases h1 : a.sqOp.upper.list = [] ∧ a.sqOp.lower.list = []
  · obtain ⟨r, hr⟩ := scalar a h1
    rcases hF with ⟨-, rfl⟩ | hF
    · rw [hr, smul_mul_assoc, mul_smul_comm, one_mul, mul_one, sub_self, smul_zero]
    · exact absurd (Or.inl h1) hF.1
  by_cases h2 : b.sqOp.upper.list = [] ∧ b.sqOp.lower.list = []
  · obtain ⟨r, hr⟩ := scalar b h2
    rcases hF with ⟨-, rfl⟩ | hF
    · rw [hr, smul_mul_assoc, mul_smul_comm, one_mul, mul_one, sub_self, smul_zero]
    · exact absurd (Or.inr h2) hF.1
  have hF := hF.resolve_left (by tauto)
  obtain ⟨-, V, W, hV, hW, rfl⟩ := hF
  have p1 : properOps [a, b] = [a.sqOp, b.sqOp] := properOps_pair (by tauto) (by tauto)
  have p2 : properOps [b, a] = [b.sqOp, a.sqOp] := properOps_pair (by tauto) (by tauto)
  have k1 := IsContraction.window (terms := [a, b]) (by rw [p1]; exact hG) (by simpa using hd) hf hno hI hph hac hcu hi
    (scale := scale) (V := V) (by simpa [p1, allTensors] using hV)
  have k2 := IsContraction.window (terms := [b, a]) (by rw [p2]; exact hG.symm) (by simpa [DisjointLabels] using Disjoint.symm hd) hf hno hI hph hac hcu hi
    (scale := scale) (V := W) (by simpa [p2, allTensors, mul_comm b.coeff] using hW)
  rw [map_sub, k1, k2, ← map_sub, ← smul_sub]
  simp

theorem commutator_values_window {I : Interp O R A} {orb : Orbitals O} {scale : ℚ} {maxCu maxOpen minOpen : Int} {before amps : List Term} {F : List A}
    (hg : ∀ l ∈ before, ∀ r ∈ amps, GoodTerm l ∧ GoodTerm r ∧ DisjointLabels l r)
    {field : Bool × O → A} (hf : Fermions field) (hno : I.NormalOrdered field) (hI : I.Antisymmetric)
    (hph : I.Physical orb) (hac : I.ActiveCumulants orb) (hcu : I.CumulantsUpTo maxCu) {f : A →ₗ[R] B} (hi : I.Ignores f maxOpen minOpen)
    (hF : List.Forall₂ (fun (p : Term × Term) f => IsCommutatorValue I orb scale maxCu maxOpen minOpen p.1 p.2 f)
      (before.flatMap fun l => amps.map fun r => (l, r)) F) :
    f F.sum = f (algebraMap ℚ R scale • (I.listValue orb before * I.listValue orb amps - I.listValue orb amps * I.listValue orb before)) := by
  have key : ∀ {pairs : List (Term × Term)} {F : List A}, (∀ p ∈ pairs, p.1 ∈ before ∧ p.2 ∈ amps) →
      List.Forall₂ (fun (p : Term × Term) f => IsCommutatorValue I orb scale maxCu maxOpen minOpen p.1 p.2 f) pairs F →
      f F.sum = f (algebraMap ℚ R scale • (pairs.map fun p => I.value orb p.1.coeff p.1.tensors p.1.sqOp * I.value orb p.2.coeff p.2.tensors p.2.sqOp -
        I.value orb p.2.coeff p.2.tensors p.2.sqOp * I.value orb p.1.coeff p.1.tensors p.1.sqOp).sum) := by
    intro pairs F hp hF
    induction hF with
    | nil => simp
    | @cons p x pairs F h _ ih =>
      rw [List.sum_cons, map_add, List.map_cons, List.sum_cons, smul_add, map_add, ih fun q hq => hp q (by simp [hq])]
      congr 1
      obtain ⟨h1, h2⟩ := hp p (by simp)
      obtain ⟨g1, g2, hd⟩ := hg _ h1 _ h2
      have ho := ordinary_of_good (terms := [p.1, p.2]) (by simp [g1, g2]) (by simpa using hd)
      exact IsCommutatorValue.window ho.ops hd hf hno hI hph hac hcu hi h
  rw [key ?_ hF, sum_pairs (fun t : Term => I.value orb t.coeff t.tensors t.sqOp)]
  · rfl
  · intro p hp
    obtain ⟨l, hl, hp⟩ := List.mem_flatMap.1 hp
    obtain ⟨r, hr, rfl⟩ := List.mem_map.1 hp
    exact ⟨hl, hr⟩

end

end Dsrg
