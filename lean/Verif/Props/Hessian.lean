import Verif.Lemmas.Hessian
import Verif.Props.TermOps
import Verif.Lemmas.SympyTotal

/-!
Property theorems about `diagonal_hessian_t`.
-/

namespace Dsrg

/-! ### C87 diagonal_hessian_t is the derivative with respect to the amplitude with the labels of the operator -/

section
variable {O R M : Type} [Fintype O] [DecidableEq O] [Inhabited O] [CommRing R] [Algebra ℚ R]

/-- The matrix element of the term changes by `ε` times the one of the result when the amplitude with the orbitals of that matrix element
changes by `ε`, if labels of the amplitude that are labels of the operator are at their positions.  The labels of the operator are compared
with those of the amplitude as they stand when the spaces of the upper labels agree, and with upper and lower labels exchanged otherwise. -/
theorem C87_derivative_partial (ts : List Tensor) (op : SqOp) (c : ℚ) (t : Term) (r : HessianResult) (ht : Term.make ts op c = .ok t)
    (hr : t.diagonalHessianT = .ok r) (x : Tensor) (hx : x ∈ ts) (hcls : x.cls = .cluster) (hn : x.upper.list.length = op.upper.list.length)
    (u l : List Index) (hul : (u, l) = if x.upper.list.map Index.space = op.upper.list.map Index.space then (op.upper.list, op.lower.list)
      else (op.lower.list, op.upper.list))
    (hspu : x.upper.list.map Index.space = u.map Index.space) (hspl : x.lower.list.map Index.space = l.map Index.space)
    (hnd : (x.upper.list ++ x.lower.list).Nodup)
    (hpos : ∀ p ∈ (x.upper.list ++ x.lower.list).zip (u ++ l), p.1 ∈ op.upper.list ++ op.lower.list → p.1 = p.2)
    (orb : Orbitals O) (I : Interp O R M) (τ : Index → O) (ε : R) :
    (I.shiftElement ε (u.map τ) (l.map τ)).element orb c ts op τ =
      I.element orb c ts op τ + ε * I.element orb r.coeff r.tensors r.sqOp τ := by
  obtain ⟨-, -, -, rfl⟩ := Term.make_ok.1 ht
  unfold Term.diagonalHessianT at hr
  obtain ⟨s, hs, hr⟩ := bind_ok hr
  have hxs : x ∈ sortTensors ts := (sortTensors_perm ts).mem_iff.2 hx
  rcases hessianSplit_ok hs with ⟨rest', -, -, h2⟩ | ⟨-, pre, z, post, e, rfl, h1, h2, h3, h4⟩
  · exact absurd hn (h2 x hxs hcls)
  have hxz : x = z := by
    have e' : sortTensors ts = pre ++ z :: post := e
    rw [e'] at hxs
    simp only [List.mem_append, List.mem_cons] at hxs
    rcases hxs with h | h | h
    · exact absurd hn (h4 x (by simp [h]) hcls)
    · exact h
    · exact absurd hn (h4 x (by simp [h]) hcls)
  subst hxz
  obtain ⟨ts', hts, hr⟩ := bind_ok hr
  have hpairs : (if x.upper.list.map Index.space = op.upper.list.map Index.space then x.pair.indices.zip op.indices
      else x.pair.indices.zip (op.lower.list ++ op.upper.list)) = x.pair.indices.zip (u ++ l) := by
    split_ifs at hul ⊢ with hsp
    · obtain ⟨rfl, rfl⟩ := Prod.mk.inj hul; rfl
    · obtain ⟨rfl, rfl⟩ := Prod.mk.inj hul; rfl
  simp only [] at hts
  rw [hpairs] at hts
  obtain ⟨-, rfl, -⟩ := replaceTensors_ok (hessianMap_realizes _ _) hts
  have hperm : ts.Perm (x :: ([] ++ pre ++ post)) := by
    refine (sortTensors_perm ts).symm.trans ?_
    rw [show sortTensors ts = pre ++ x :: post from e]
    simpa using List.perm_middle
  have hlen : u.length = op.upper.list.length := by
    rw [← hn]; simpa using (congrArg List.length hspu).symm
  have key := element_shift I orb c (rest := [] ++ pre ++ post) hcls (u := u) (l := l) (op := op) (by
    intro i
    split_ifs at hul
    · obtain ⟨rfl, rfl⟩ := Prod.mk.inj hul; rfl
    · obtain ⟨rfl, rfl⟩ := Prod.mk.inj hul; simp [or_comm]) hlen (by simpa using h4) hnd hspu hspl hpos τ ε
  rw [Interp.element_perm _ orb c hperm op τ, Interp.element_perm I orb c hperm op τ, key]
  congr 2
  simp only [] at hr
  split at hr
  · rename_i w hw
    obtain rfl := Except.ok.inj hr
    obtain ⟨-, -, -, rfl⟩ := Term.make_ok.1 hw
    exact Interp.element_perm I orb c (sortTensors_perm _).symm op τ
  · obtain rfl := Except.ok.inj hr
    rfl
  · cases hr

/-- Without an amplitude of as many labels the result is zero, and the matrix elements do not depend on such amplitudes. -/
theorem C87_no_amplitude (ts : List Tensor) (op : SqOp) (c : ℚ) (t : Term) (ht : Term.make ts op c = .ok t)
    (hbal : ∀ x ∈ ts, x.cls = .cluster → x.upper.list.length = x.lower.list.length) (hop : op.upper.list.length = op.lower.list.length)
    (hn : ∀ x ∈ ts, x.cls = .cluster → x.upper.list.length ≠ op.upper.list.length) :
    (∃ r, t.diagonalHessianT = .ok r ∧ r.coeff = 0) ∧
    ∀ (orb : Orbitals O) (I : Interp O R M) (τ : Index → O) (ε : R) (u l : List O), u.length = op.upper.list.length →
      (I.shiftElement ε u l).element orb c ts op τ = I.element orb c ts op τ := by
  obtain ⟨-, -, -, rfl⟩ := Term.make_ok.1 ht
  constructor
  · have : ∀ (l rest : List Tensor), (∀ x ∈ l, x ∈ ts) → hessianSplit op none rest l = .ok (none, rest ++ l) := by
      intro l
      induction l with
      | nil => intro rest _; simp [hessianSplit, pure, Except.pure]
      | cons x l ih =>
        intro rest hl
        have hx := hl x (by simp)
        have next := ih (rest ++ [x]) fun y hy => hl y (by simp [hy])
        rw [List.append_assoc, List.singleton_append] at next
        unfold hessianSplit
        split_ifs with hc
        · have b1 : x.pair.nBody = .ok x.upper.list.length := by
            have := hbal x hx hc
            unfold IndicesPair.nBody IndicesPair.nLower IndicesPair.nUpper Indices.size
            change x.pair.upper.list.length = x.pair.lower.list.length at this
            rw [if_neg (by simpa using this.symm)]
            exact congrArg _ this.symm
          have b2 : op.nBody = .ok op.upper.list.length := by
            unfold IndicesPair.nBody IndicesPair.nLower IndicesPair.nUpper Indices.size
            rw [if_neg (by simpa using hop.symm), hop]
          rw [bind_ok_of b1, bind_ok_of b2, if_neg (hn x hx hc)]
          exact next
        · exact next
    refine ⟨.row 0 [] op.void, ?_, rfl⟩
    unfold Term.diagonalHessianT
    rw [bind_ok_of (this (sortTensors ts) [] fun x hx => (sortTensors_perm ts).mem_iff.1 hx)]
    rfl
  · intro orb I τ ε u l hu
    unfold Interp.element
    congr 1
    exact Finset.sum_congr rfl fun σ _ => pval_shift_other I ε l hu _ hn

end

/-- Nothing is returned for a term with two amplitudes of as many labels, whose derivative would need the product rule. -/
theorem C87_one_amplitude (ts : List Tensor) (op : SqOp) (c : ℚ) (t : Term) (r : HessianResult) (ht : Term.make ts op c = .ok t)
    (hr : t.diagonalHessianT = .ok r) :
    (ts.filter fun x => decide (x.cls = .cluster ∧ x.upper.list.length = op.upper.list.length)).length ≤ 1 := by
  obtain ⟨-, -, -, rfl⟩ := Term.make_ok.1 ht
  unfold Term.diagonalHessianT at hr
  obtain ⟨s, hs, -⟩ := bind_ok hr
  have none_of : ∀ {l : List Tensor}, (∀ y ∈ l, NotSuch op y) → l.filter (fun x => decide (x.cls = .cluster ∧ x.upper.list.length = op.upper.list.length)) = [] := by
    intro l h
    rw [List.filter_eq_nil_iff]
    intro y hy e
    obtain ⟨e1, e2⟩ := of_decide_eq_true e
    exact h y hy e1 e2
  rw [← ((sortTensors_perm ts).filter _).length_eq]
  rcases hessianSplit_ok hs with ⟨rest', -, -, h2⟩ | ⟨-, pre, z, post, e, -, -, -, -, h4⟩
  · have h2' : ∀ y ∈ sortTensors ts, NotSuch op y := h2
    rw [none_of h2']
    simp
  · have e' : sortTensors ts = pre ++ z :: post := e
    have h5 : ∀ y ∈ pre ++ post, NotSuch op y := h4
    rw [e', List.filter_append, none_of (fun y hy => h5 y (by simp [hy])), List.nil_append, List.filter_cons,
      none_of (fun y hy => h5 y (by simp [hy]))]
    split_ifs <;> simp

/-- The term `H^{c2}_{c0} T^{c2}_{v0} a^{v0}_{c0}` of the one-body residual. -/
def hessianExample : List Tensor := [soTensor .hamiltonian 'H' 0 [lab .c 2] [lab .c 0], soTensor .cluster 'T' 1 [lab .c 2] [lab .v 0]]

/-- The hypotheses of C87 are met; the result for `H^{c2}_{c0} T^{c2}_{v0} a^{v0}_{c0}` is `H^{c0}_{c0}`. -/
theorem C87_example : ∃ t r, Term.make hessianExample (soOp [lab .v 0] [lab .c 0]) 1 = .ok t ∧ t.diagonalHessianT = .ok r ∧
    (r.coeff, r.tensors, r.sqOp) = (1, [soTensor .hamiltonian 'H' 0 [lab .c 0] [lab .c 0]], soOp [lab .v 0] [lab .c 0]) ∧
    ∀ p ∈ [lab .c 2, lab .v 0].zip ([lab .c 0] ++ [lab .v 0]), p.1 ∈ [lab .v 0] ++ [lab .c 0] → p.1 = p.2 := by
  obtain ⟨r, h1, h2⟩ := exists_of_map (x := (Term.make hessianExample (soOp [lab .v 0] [lab .c 0]) 1).bind fun t => t.diagonalHessianT)
    (f := fun r => (r.coeff, r.tensors, r.sqOp))
    (b := (1, [soTensor .hamiltonian 'H' 0 [lab .c 0] [lab .c 0]], soOp [lab .v 0] [lab .c 0])) (by decide +kernel)
  cases h : Term.make hessianExample (soOp [lab .v 0] [lab .c 0]) 1 with
  | error e => rw [h] at h1; cases h1
  | ok t => rw [h] at h1; exact ⟨t, r, rfl, h1, h2, by decide⟩

/-- A term that is an amplitude times its operator, whose derivative is the coefficient, raises `ValueError`. -/
theorem C87_violation_amplitude_alone : ∃ (t : Term), clusterOperator 1 0 true ['T'] 1 ⟨.c, false⟩ ⟨.v, false⟩ .spinOrbital = .ok t ∧
    (match t.diagonalHessianT with | .error .valueError => true | _ => false) = true := by
  have h : (match clusterOperator 1 0 true ['T'] 1 ⟨.c, false⟩ ⟨.v, false⟩ .spinOrbital with
    | .ok t => (match t.diagonalHessianT with | .error .valueError => true | _ => false) | .error _ => false) = true := by decide +kernel
  cases h1 : clusterOperator 1 0 true ['T'] 1 ⟨.c, false⟩ ⟨.v, false⟩ .spinOrbital with
  | error e => rw [h1] at h; simp at h
  | ok t => rw [h1] at h; exact ⟨t, rfl, h⟩

/-- Two core orbitals and two virtual ones. -/
def hessianOrbitals : Orbitals (Fin 4) := ⟨fun o => if o.1 < 2 then .core else .virt, fun _ => false⟩

/-- All amplitudes are zero, the Hamiltonian couples the two core orbitals. -/
def hessianInterp : Interp (Fin 4) ℚ ℚ where
  tensor cls _ u l := if cls = .hamiltonian ∧ (u = [0] ∧ l = [1] ∨ u = [1] ∧ l = [0]) then 1 else 0
  op _ _ := 0

/-- The term `H^{c2}_{c0} T^{c1,c2}_{v0,v1} a^{v0,v1}_{c0,c1}`. -/
def hessianTensors : List Tensor :=
  [soTensor .hamiltonian 'H' 0 [lab .c 2] [lab .c 0], soTensor .cluster 'T' 1 [lab .c 1, lab .c 2] [lab .v 0, lab .v 1]]

/-- When a label of the operator is at another position of the amplitude the result is not the derivative: for
`H^{c2}_{c0} T^{c1,c2}_{v0,v1} a^{v0,v1}_{c0,c1}` it is `H^{c1}_{c0}`, although no diagonal element of the derivative contains `H` of two
different orbitals. -/
theorem C87_violation_positions : ∃ (t : Term) (r : HessianResult) (τ : Index → Fin 4),
    Term.make hessianTensors (soOp [lab .v 0, lab .v 1] [lab .c 0, lab .c 1]) 1 = .ok t ∧ t.diagonalHessianT = .ok r ∧
    r.tensors = [soTensor .hamiltonian 'H' 0 [lab .c 1] [lab .c 0]] ∧ hessianInterp.Antisymmetric ∧
    (∀ i ∈ [lab .v 0, lab .v 1, lab .c 0, lab .c 1], hessianOrbitals.In i.space (τ i)) ∧
    (hessianInterp.shiftElement 1 ([lab .c 0, lab .c 1].map τ) ([lab .v 0, lab .v 1].map τ)).element hessianOrbitals 1 hessianTensors
        (soOp [lab .v 0, lab .v 1] [lab .c 0, lab .c 1]) τ ≠
      hessianInterp.element hessianOrbitals 1 hessianTensors (soOp [lab .v 0, lab .v 1] [lab .c 0, lab .c 1]) τ +
        1 * hessianInterp.element hessianOrbitals r.coeff r.tensors r.sqOp τ := by
  obtain ⟨r, h1, h2⟩ := exists_of_map (x := (Term.make hessianTensors (soOp [lab .v 0, lab .v 1] [lab .c 0, lab .c 1]) 1).bind fun t => t.diagonalHessianT)
    (f := fun r => (r.coeff, r.tensors, r.sqOp))
    (b := (1, [soTensor .hamiltonian 'H' 0 [lab .c 1] [lab .c 0]], soOp [lab .v 0, lab .v 1] [lab .c 0, lab .c 1])) (by decide +kernel)
  simp only [Prod.mk.injEq] at h2
  cases h : Term.make hessianTensors (soOp [lab .v 0, lab .v 1] [lab .c 0, lab .c 1]) 1 with
  | error e => rw [h] at h1; cases h1
  | ok t =>
    rw [h] at h1
    refine ⟨t, r, fun i => if i.space.kind = .c then (if i.number = 0 then 0 else 1) else (if i.number = 0 then 2 else 3), rfl, h1, h2.2.1, ?_, ?_, ?_⟩
    · have hne : ∀ (pre post : List (Fin 4)) (a b o : Fin 4), pre ++ b :: a :: post ≠ [o] := by
        intro pre post a b o e
        have := congrArg List.length e
        simp at this
        omega
      constructor <;> intros <;> simp [hessianInterp, hne]
    · decide
    · rw [h2.1, h2.2.1, h2.2.2]
      decide +kernel

end Dsrg
