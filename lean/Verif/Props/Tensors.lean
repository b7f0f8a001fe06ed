import Verif.Lemmas.Order
import Verif.Props.IndexLists
import Verif.Spec.Spaces
import Mathlib.Data.Nat.Choose.Vandermonde

/-!
Properties C14-C18: pairs of index lists, operators and tensors.
-/

namespace Dsrg

/-! ### C14 Spin cases of a pair conserve spin and are complete -/

theorem nodup_flatMap_pairs {α β : Type} (l : List α) (f : α → List β) (hl : l.Nodup) (hf : ∀ a ∈ l, (f a).Nodup) :
    (l.flatMap fun a => (f a).map fun b => (a, b)).Nodup := by
  rw [List.nodup_flatMap]
  refine ⟨fun a ha => (hf a ha).map fun _ _ h => by simpa using h, ?_⟩
  refine List.Pairwise.imp ?_ hl
  intro a b hab
  intro c hc hc'
  simp only [List.mem_map] at hc hc'
  obtain ⟨d, -, rfl⟩ := hc
  obtain ⟨d', -, h⟩ := hc'
  simp only [Prod.mk.injEq] at h
  exact hab h.1.symm

/-- `y` is a spin labeling of the spin-orbital list `x`. -/
def SpinLabeling (x y : Indices) : Prop := y.ty = .spinIntegrated ∧ y.list.map Index.toAlpha = x.list

theorem SpinLabeling.size {x y : Indices} (h : SpinLabeling x y) : y.size = x.size := by
  unfold Indices.size; rw [← h.2, List.length_map]

/-- The number of spin labelings with `k` beta labels. -/
theorem card_labelings (x : Indices) (ht : x.ty = .spinOrbital) (hw : x.WF) (cases : List Indices)
    (h1 : cases.Nodup) (h2 : ∀ y, y ∈ cases ↔ SpinLabeling x y) (k : Nat) (hk : k ≤ x.size) :
    (cases.toFinset.filter fun y => y.nBeta = k).card = x.size.choose k := by
  obtain ⟨c, -, g2, g3, g4⟩ := C13_fixed_beta x ht hw k hk
  rw [← g3, ← List.toFinset_card_of_nodup g2]
  congr 1
  ext y
  simp only [Finset.mem_filter, List.mem_toFinset, h2, g4, SpinLabeling]
  tauto

/-- Particle-conserving: exactly the pairs of labelings with equally many beta labels, each once, `C(2n,n)` of them. -/
theorem C14_conserving (x : IndicesPair) (hu : x.upper.ty = .spinOrbital) (hl : x.lower.ty = .spinOrbital)
    (hwu : x.upper.WF) (hwl : x.lower.WF) (n : Nat) (hnu : x.nUpper = n) (hnl : x.nLower = n) :
    ∃ cases, x.generateSpinCases true = .ok cases ∧ cases.Nodup ∧ cases.length = (2 * n).choose n ∧
      ∀ u l, (u, l) ∈ cases ↔ (u.ty = .spinIntegrated ∧ u.list.map Index.toAlpha = x.upper.list) ∧
        (l.ty = .spinIntegrated ∧ l.list.map Index.toAlpha = x.lower.list) ∧ u.nBeta = l.nBeta := by
  obtain ⟨uppers, u1, u2, -, u4⟩ := C13_all_spin_cases x.upper hu hwu
  change ∀ y, y ∈ uppers ↔ SpinLabeling x.upper y at u4
  have hle : ∀ u ∈ uppers, u.nBeta ≤ x.lower.size := by
    intro u hu'
    have := ((u4 u).1 hu').size
    have h2 : u.nBeta ≤ u.size := List.countP_le_length
    have h3 : x.upper.size = n := hnu
    have h4 : x.lower.size = n := hnl
    omega
  let g : Indices → List Indices := fun u =>
    if h : u.nBeta ≤ x.lower.size then (C13_fixed_beta x.lower hl hwl u.nBeta h).choose else []
  have hg : ∀ u ∈ uppers, x.lower.generateSpinCases (some (u.nBeta : Int)) = .ok (g u) ∧ (g u).Nodup ∧
      (g u).length = n.choose u.nBeta ∧ ∀ y, y ∈ g u ↔ SpinLabeling x.lower y ∧ y.nBeta = u.nBeta := by
    intro u hu'
    have h := hle u hu'
    simp only [g, dif_pos h]
    obtain ⟨a, b, c, d⟩ := (C13_fixed_beta x.lower hl hwl u.nBeta h).choose_spec
    refine ⟨a, b, ?_, ?_⟩
    · rw [c]; rw [show x.lower.size = n from hnl]
    · intro y; rw [d]; unfold SpinLabeling; tauto
  refine ⟨uppers.flatMap fun u => (g u).map fun l => (u, l), ?_, ?_, ?_, ?_⟩
  · unfold IndicesPair.generateSpinCases
    rw [if_neg (not_not.2 hu), if_neg (by simp [hnu, hnl])]
    rw [u1]
    have hstep := mapM_except_ok (fun u : Indices => do
        let lowers ← x.lower.generateSpinCases (some (u.nBeta : Int))
        pure (lowers.map fun l => (u, l))) (fun u => (g u).map fun l => (u, l)) uppers (by
      intro u hu'; rw [(hg u hu').1]; rfl)
    show (Except.bind _ fun rows => Except.ok (List.flatten rows)) = _
    erw [hstep]
    rw [List.flatMap_def]
    rfl
  · exact nodup_flatMap_pairs _ _ u2 fun u hu' => (hg u hu').2.1
  · rw [List.length_flatMap]
    have e1 : (uppers.map fun u => ((g u).map fun l => (u, l)).length) = uppers.map fun u => n.choose u.nBeta := by
      apply List.map_congr_left
      intro u hu'
      rw [List.length_map, (hg u hu').2.2.1]
    rw [e1, ← List.sum_toFinset (fun u : Indices => n.choose u.nBeta) u2]
    rw [← Finset.sum_fiberwise_of_maps_to (s := uppers.toFinset) (t := Finset.range (n + 1)) (g := Indices.nBeta)
      (by
        intro u hu'
        rw [List.mem_toFinset] at hu'
        rw [Finset.mem_range]
        have := hle u hu'
        have h4 : x.lower.size = n := hnl
        omega)]
    rw [← Nat.sum_range_choose_sq]
    apply Finset.sum_congr rfl
    intro k hk
    rw [Finset.mem_range] at hk
    have e2 : ∀ u ∈ uppers.toFinset.filter (fun u => u.nBeta = k), n.choose u.nBeta = n.choose k := by
      intro u hu'
      rw [(Finset.mem_filter.1 hu').2]
    rw [Finset.sum_congr rfl e2, Finset.sum_const, smul_eq_mul, sq]
    congr 1
    have h3 : x.upper.size = n := hnu
    rw [← h3]
    exact card_labelings x.upper hu hwu uppers u2 u4 k (by omega)
  · intro u l
    simp only [List.mem_flatMap, List.mem_map, Prod.mk.injEq]
    constructor
    · rintro ⟨u', hu', l', hl', rfl, rfl⟩
      have h1 := (u4 u').1 hu'
      have h2 := ((hg u' hu').2.2.2 l').1 hl'
      exact ⟨h1, h2.1, h2.2.symm⟩
    · rintro ⟨h1, h2, h3⟩
      have hu' := (u4 u).2 h1
      exact ⟨u, hu', l, ((hg u hu').2.2.2 l).2 ⟨h2, h3.symm⟩, rfl, rfl⟩

/-- Without the flag: all pairs of labelings, each once, `2^(n+m)` of them. -/
theorem C14_all (x : IndicesPair) (hu : x.upper.ty = .spinOrbital) (hl : x.lower.ty = .spinOrbital)
    (hwu : x.upper.WF) (hwl : x.lower.WF) :
    ∃ cases, x.generateSpinCases false = .ok cases ∧ cases.Nodup ∧ cases.length = 2 ^ (x.nUpper + x.nLower) ∧
      ∀ u l, (u, l) ∈ cases ↔ (u.ty = .spinIntegrated ∧ u.list.map Index.toAlpha = x.upper.list) ∧
        (l.ty = .spinIntegrated ∧ l.list.map Index.toAlpha = x.lower.list) := by
  obtain ⟨uppers, u1, u2, u3, u4⟩ := C13_all_spin_cases x.upper hu hwu
  obtain ⟨lowers, l1, l2, l3, l4⟩ := C13_all_spin_cases x.lower hl hwl
  refine ⟨uppers.flatMap fun u => lowers.map fun l => (u, l), ?_, ?_, ?_, ?_⟩
  · unfold IndicesPair.generateSpinCases
    rw [if_neg (not_not.2 hu), if_neg (by simp)]
    rw [u1]
    have hstep := mapM_except_ok (fun u : Indices => do
        let lowers ← x.lower.generateSpinCases none
        pure (lowers.map fun l => (u, l))) (fun u => lowers.map fun l => (u, l)) uppers (by
      intro u hu'; rw [l1]; rfl)
    show (Except.bind _ fun rows => Except.ok (List.flatten rows)) = _
    erw [hstep]
    rw [List.flatMap_def]
    rfl
  · exact nodup_flatMap_pairs _ _ u2 fun u hu' => l2
  · rw [List.length_flatMap]
    have e1 : (uppers.map fun u => (lowers.map fun l => (u, l)).length) = uppers.map fun _ => 2 ^ x.lower.size := by
      apply List.map_congr_left
      intro u hu'
      rw [List.length_map, l3]
    rw [e1, List.map_const', List.sum_replicate, u3, smul_eq_mul, pow_add]
    rfl
  · intro u l
    simp only [List.mem_flatMap, List.mem_map, Prod.mk.injEq]
    constructor
    · rintro ⟨u', hu', l', hl', rfl, rfl⟩
      exact ⟨(u4 u').1 hu', (l4 l').1 hl'⟩
    · rintro ⟨h1, h2⟩
      exact ⟨u, (u4 u).2 h1, l, (l4 l).2 h2, rfl, rfl⟩

/-- Unequal numbers of labels raise `ValueError` when particle conservation is requested; other index kinds raise
`TypeError`. -/
theorem C14_errors (x : IndicesPair) :
    (x.upper.ty = .spinOrbital → x.nUpper ≠ x.nLower → x.generateSpinCases true = .error .valueError) ∧
    (x.upper.ty ≠ .spinOrbital → ∀ b, x.generateSpinCases b = .error .typeError) := by
  constructor
  · intro h1 h2
    unfold IndicesPair.generateSpinCases
    rw [if_neg (not_not.2 h1), if_pos ⟨rfl, h2⟩]
  · intro h b
    unfold IndicesPair.generateSpinCases
    rw [if_pos h]

example : let x : IndicesPair := ⟨⟨.spinOrbital, [⟨⟨.g, false⟩, 0⟩, ⟨⟨.a, false⟩, 1⟩]⟩, ⟨.spinOrbital, [⟨⟨.h, false⟩, 0⟩, ⟨⟨.v, false⟩, 3⟩]⟩⟩
    x.upper.WF ∧ x.lower.WF ∧ x.nUpper = 2 ∧ x.nLower = 2 := by
  refine ⟨⟨?_, ?_⟩, ⟨?_, ?_⟩, rfl, rfl⟩ <;> decide

/-! ### C15 Comparisons are total orders that agree with equality -/

/-- Comparison of `Indices` objects. -/
theorem C15_indices : PyTotalOrder (fun x y : Indices => x.ty = y.ty) (fun x y => x.list = y.list)
    Indices.pyEq Indices.pyNe Indices.pyLt Indices.pyLe Indices.pyGt Indices.pyGe := by
  have key := pyTotalOrder_of_key (α := Indices) (comparable := fun x y => x.ty = y.ty)
    (eq := Indices.pyEq) (ne := Indices.pyNe) (lt := Indices.pyLt) (le := Indices.pyLe) (gt := Indices.pyGt)
    (ge := Indices.pyGe) indices_totLt Indices.cmpKey (fun x y h => Eq.symm h) (fun x y z => Eq.trans)
    ?_ ?_ ?_ ?_ ?_ ?_ ?_
  · convert key using 3 with x y
    exact (Indices.cmpKey_eq_iff _ _).symm
  · intro x y h
    simp only [Indices.pyEq, Indices.checkOperand, h, if_true, Indices.eqCore_eq, Indices.cmpKey_eq_iff]; rfl
  · intro x y h
    simp only [Indices.pyNe, Indices.checkOperand, h, if_true, Indices.eqCore_eq, Indices.cmpKey_eq_iff]; rfl
  · intro x y h; simp only [Indices.pyLt, Indices.checkOperand, h, if_true]; rfl
  · intro x y h; simp only [Indices.pyLe, Indices.checkOperand, h, if_true]; rfl
  · intro x y h; simp only [Indices.pyGt, Indices.checkOperand, h, if_true]; rfl
  · intro x y h; simp only [Indices.pyGe, Indices.checkOperand, h, if_true]; rfl
  · intro x y h
    simp only [Indices.pyEq, Indices.pyNe, Indices.pyLt, Indices.pyLe, Indices.pyGt, Indices.pyGe,
      Indices.checkOperand, h, if_false]
    exact ⟨rfl, rfl, rfl, rfl, rfl, rfl⟩

/-- Comparison of pairs and second-quantized operators. -/
theorem C15_pairs : PyTotalOrder (fun x y : IndicesPair => x.upper.ty = y.upper.ty)
    (fun x y => x.upper.list = y.upper.list ∧ x.lower.list = y.lower.list)
    IndicesPair.pyEq IndicesPair.pyNe IndicesPair.pyLt IndicesPair.pyLe IndicesPair.pyGt IndicesPair.pyGe := by
  have key := pyTotalOrder_of_key (α := IndicesPair) (comparable := fun x y => x.upper.ty = y.upper.ty)
    (eq := IndicesPair.pyEq) (ne := IndicesPair.pyNe) (lt := IndicesPair.pyLt) (le := IndicesPair.pyLe)
    (gt := IndicesPair.pyGt) (ge := IndicesPair.pyGe) pair_totLt IndicesPair.cmpKey (fun x y h => Eq.symm h)
    (fun x y z => Eq.trans) ?_ ?_ ?_ ?_ ?_ ?_ ?_
  · convert key using 3 with x y
    exact (IndicesPair.cmpKey_eq_iff _ _).symm
  · intro x y h
    simp only [IndicesPair.pyEq, IndicesPair.checkOperand, h, if_true, IndicesPair.eqCore_eq]; rfl
  · intro x y h
    simp only [IndicesPair.pyNe, IndicesPair.checkOperand, h, if_true, IndicesPair.eqCore_eq]; rfl
  · intro x y h; simp only [IndicesPair.pyLt, IndicesPair.checkOperand, h, if_true, IndicesPair.ltCore_eq]; rfl
  · intro x y h; simp only [IndicesPair.pyLe, IndicesPair.checkOperand, h, if_true, IndicesPair.leCore_eq]; rfl
  · intro x y h; simp only [IndicesPair.pyGt, IndicesPair.checkOperand, h, if_true, IndicesPair.ltCore_eq]; rfl
  · intro x y h; simp only [IndicesPair.pyGe, IndicesPair.checkOperand, h, if_true, IndicesPair.leCore_eq]; rfl
  · intro x y h
    simp only [IndicesPair.pyEq, IndicesPair.pyNe, IndicesPair.pyLt, IndicesPair.pyLe, IndicesPair.pyGt,
      IndicesPair.pyGe, IndicesPair.checkOperand, h, if_false]
    exact ⟨rfl, rfl, rfl, rfl, rfl, rfl⟩

/-- Comparison of tensors. -/
theorem C15_tensors : PyTotalOrder (fun x y : Tensor => x.upper.ty = y.upper.ty)
    (fun x y => x.priority = y.priority ∧ x.name = y.name ∧ x.upper.list = y.upper.list ∧ x.lower.list = y.lower.list)
    Tensor.pyEq Tensor.pyNe Tensor.pyLt Tensor.pyLe Tensor.pyGt Tensor.pyGe := by
  have key := pyTotalOrder_of_key (α := Tensor) (comparable := fun x y => x.upper.ty = y.upper.ty)
    (eq := Tensor.pyEq) (ne := Tensor.pyNe) (lt := Tensor.pyLt) (le := Tensor.pyLe)
    (gt := Tensor.pyGt) (ge := Tensor.pyGe) tensor_totLt Tensor.cmpKey (fun x y h => Eq.symm h)
    (fun x y z => Eq.trans) ?_ ?_ ?_ ?_ ?_ ?_ ?_
  · have e : (fun x y : Tensor => x.cmpKey = y.cmpKey) = fun x y => x.priority = y.priority ∧ x.name = y.name ∧
        x.upper.list = y.upper.list ∧ x.lower.list = y.lower.list := by
      funext x y; exact propext (Tensor.cmpKey_eq_iff _ _)
    rw [e] at key
    exact key
  · intro x y h
    simp only [Tensor.pyEq, IndicesPair.checkOperand, h, if_true, Tensor.eqCore_eq]; rfl
  · intro x y h
    simp only [Tensor.pyNe, IndicesPair.checkOperand, h, if_true, Tensor.eqCore_eq]; rfl
  · intro x y h; simp only [Tensor.pyLt, IndicesPair.checkOperand, h, if_true, Tensor.ltCore_eq]; rfl
  · intro x y h; simp only [Tensor.pyLe, IndicesPair.checkOperand, h, if_true, Tensor.leCore_eq]; rfl
  · intro x y h; simp only [Tensor.pyGt, IndicesPair.checkOperand, h, if_true, Tensor.ltCore_eq]; rfl
  · intro x y h; simp only [Tensor.pyGe, IndicesPair.checkOperand, h, if_true, Tensor.leCore_eq]; rfl
  · intro x y h
    simp only [Tensor.pyEq, Tensor.pyNe, Tensor.pyLt, Tensor.pyLe, Tensor.pyGt,
      Tensor.pyGe, IndicesPair.checkOperand, h, if_false]
    exact ⟨rfl, rfl, rfl, rfl, rfl, rfl⟩

theorem leCore_of_pyLe {x y : Tensor} (h : x.pyLe y = .ok true) : x.leCore y = true := by
  unfold Tensor.pyLe IndicesPair.checkOperand at h
  split at h
  · simpa using h
  · simp [bind, Except.bind] at h

/-- Any two sorted arrangements of the same tensors agree in every position (up to `==`). -/
theorem C15_sort_unique (l l' : List Tensor) (hp : l.Perm l') (hs : l.Pairwise fun x y => x.pyLe y = .ok true)
    (hs' : l'.Pairwise fun x y => x.pyLe y = .ok true) :
    l.map (fun t => (t.priority, t.name, t.upper.list, t.lower.list)) =
      l'.map (fun t => (t.priority, t.name, t.upper.list, t.lower.list)) := by
  have hk : (l.map Tensor.cmpKey) = l'.map Tensor.cmpKey := by
    have hpk : (l.map Tensor.cmpKey).Perm (l'.map Tensor.cmpKey) := hp.map _
    have T := tensor_totLt
    replace hs := hs.imp fun h => leCore_of_pyLe h
    replace hs' := hs'.imp fun h => leCore_of_pyLe h
    revert hs hs'
    simp only [Tensor.leCore_eq]
    intro hs hs'
    rw [← List.pairwise_map (f := Tensor.cmpKey) (R := fun x y => lexCmp (fun a b : Int => decide (a ≤ b)) (lexCmp strLe (lexCmp (fun a b : Nat => decide (a ≤ b))
      (lexCmp (lexCmp (fun a b : Nat => decide (a ≤ b)) (pyListLe Index.pyLe))
      (lexCmp (fun a b : Nat => decide (a ≤ b)) (pyListLe Index.pyLe))))) x y = true)] at hs hs'
    apply hpk.eq_of_pairwise _ hs hs'
    intro a b _ _ hab hba
    rw [T.le_eq] at hab hba
    simp only [Bool.not_eq_true'] at hab hba
    rcases T.tri a b with h | h | h
    · rw [hba] at h; simp at h
    · exact h
    · rw [hab] at h; simp at h
  have e : ∀ l : List Tensor, l.map (fun t => (t.priority, t.name, t.upper.list, t.lower.list)) =
      (l.map Tensor.cmpKey).map fun k => (k.1, k.2.1, k.2.2.2.1.2, k.2.2.2.2.2) := by
    intro l; rw [List.map_map]; rfl
  rw [e, e, hk]

example : Tensor.pyLt ⟨.hamiltonian, ['H'], 0, ⟨⟨.spinOrbital, [⟨⟨.g, false⟩, 0⟩]⟩, ⟨.spinOrbital, [⟨⟨.g, false⟩, 1⟩]⟩⟩⟩
    ⟨.cluster, ['T'], 1, ⟨⟨.spinOrbital, [⟨⟨.h, false⟩, 0⟩]⟩, ⟨.spinOrbital, [⟨⟨.p, false⟩, 1⟩]⟩⟩⟩ = .ok true := by decide +kernel

/-! ### C16 Hermitian conjugation is an involution (operators) -/

/-- Conjugation swaps the creation and annihilation labels; twice is the identity; without the flag it is a copy. -/
theorem C16_operator (U L : Indices) (x : SqOp) (hx : IndicesPair.make U L = .ok x) :
    ∃ y, x.clone true = .ok y ∧ y.upper = L ∧ y.lower = U ∧ y.clone true = .ok x ∧ x.clone false = .ok x := by
  unfold IndicesPair.make at hx
  by_cases h : U.ty = L.ty
  · rw [if_neg (not_not.2 h)] at hx
    cases hx
    refine ⟨⟨L, U⟩, ?_, rfl, rfl, ?_, ?_⟩
    · simp [IndicesPair.clone, IndicesPair.make, h]
    · simp [IndicesPair.clone, IndicesPair.make, h]
    · simp [IndicesPair.clone, IndicesPair.make, h]
  · rw [if_pos h] at hx; simp at hx

example : ∃ x, IndicesPair.make ⟨.spinOrbital, [⟨⟨.g, false⟩, 0⟩, ⟨⟨.a, false⟩, 1⟩]⟩ ⟨.spinOrbital, [⟨⟨.h, false⟩, 0⟩]⟩ = .ok x :=
  ⟨_, rfl⟩

/-! ### C17 downgrade_indices returns exactly the orbital space the density lives on -/

/-- The orbitals (of one spin) on which both labels and the density live. -/
def CommonOrbital (keep : Elem → Prop) (u l : Space) (e : Elem) : Prop := u.kind.Denotes e ∧ l.kind.Denotes e ∧ keep e

instance (keep : Elem → Prop) [DecidablePred keep] (u l : Space) (e : Elem) : Decidable (CommonOrbital keep u l e) := by
  unfold CommonOrbital; infer_instance

/-- What it means that a returned label is right. -/
def DowngradeSpec (keep : Elem → Prop) (u l : Space) (r : Option Space) : Prop :=
  match r with
  | none => ∀ e, ¬ CommonOrbital keep u l e
  | some s => s.beta = u.beta ∧ (∃ e, CommonOrbital keep u l e) ∧ ∀ e, s.kind.Denotes e ↔ CommonOrbital keep u l e

instance (keep : Elem → Prop) [DecidablePred keep] (u l : Space) (r : Option Space) :
    Decidable (DowngradeSpec keep u l r) := by
  cases r <;> unfold DowngradeSpec <;> infer_instance

theorem downgradeDensity_cumulant (u l : Space) (h : u.beta = l.beta) :
    DowngradeSpec (fun e => e ≠ .virt) u l (downgradeDensity .v .h u l) := by
  revert h; revert u l; decide +kernel

theorem downgradeDensity_hole (u l : Space) (h : u.beta = l.beta) :
    DowngradeSpec (fun e => e ≠ .core) u l (downgradeDensity .c .p u l) := by
  revert h; revert u l; decide +kernel

theorem downgradeDelta_spec (u l : Index) (h : u.space.beta = l.space.beta) :
    DowngradeSpec (fun _ => True) u.space l.space (downgradeDelta u l) := by
  have key : ∀ s t : Space, s.beta = t.beta → s.priority ≤ t.priority →
      DowngradeSpec (fun _ => True) s t
        (if (s.relation ∩ t.relation).card = 0 then none
          else if (s.kind, t.kind) = (Kind.p, Kind.h) then some ⟨.a, s.beta⟩ else some t) := by decide +kernel
  have hsymm : ∀ (s t : Space) r, s.beta = t.beta → DowngradeSpec (fun _ => True) s t r →
      DowngradeSpec (fun _ => True) t s r := by
    intro s t r hb hd
    have hc : ∀ e, CommonOrbital (fun _ => True) t s e ↔ CommonOrbital (fun _ => True) s t e := by
      intro e; unfold CommonOrbital; tauto
    cases r <;> simp only [DowngradeSpec, hc, ← hb] at hd ⊢ <;> exact hd
  unfold downgradeDelta
  by_cases hlt : l.pyLt u = true
  · simp only [hlt, if_true]
    rw [Index.pyLt_iff, Index.lt_iff] at hlt
    exact hsymm _ _ _ h.symm (key l.space u.space h.symm (by omega))
  · simp only [hlt, Bool.false_eq_true, if_false]
    rw [Index.pyLt_iff, Index.lt_iff] at hlt
    exact key u.space l.space h (by omega)

/-- The one-body cumulant lives on holes, the hole density on particles, the delta everywhere; the returned label denotes
exactly the common orbitals of that kind, and `''` (here `none`) is returned exactly when there are none. -/
theorem C17_downgrade (cls : TCls) (u l : Index) (ty : IType) (name : PyStr) (prio : Int) (t : Tensor)
    (hcls : cls = .cumulant ∨ cls = .hole ∨ cls = .kronecker)
    (ht : Tensor.make cls ⟨ty, [u]⟩ ⟨ty, [l]⟩ name prio = .ok t) :
    ∃ r, t.downgradeIndices = .ok r ∧
      DowngradeSpec (fun e => (cls = .cumulant → e ≠ .virt) ∧ (cls = .hole → e ≠ .core)) u.space l.space r := by
  have hspin : u.space.beta = l.space.beta ∧ t = ⟨cls, name, prio, ⟨⟨ty, [u]⟩, ⟨ty, [l]⟩⟩⟩ := by
    have hp : IndicesPair.make ⟨ty, [u]⟩ ⟨ty, [l]⟩ = .ok ⟨⟨ty, [u]⟩, ⟨ty, [l]⟩⟩ := by simp [IndicesPair.make]
    have hsc : requireSpinConserving ⟨⟨ty, [u]⟩, ⟨ty, [l]⟩⟩ =
        if u.space.beta = l.space.beta then .ok () else .error .valueError := by
      cases hu : u.space.beta <;> cases hl : l.space.beta <;>
        simp [requireSpinConserving, IndicesPair.isSpinConserving, IndicesPair.nUpper, IndicesPair.nLower,
            Indices.size, Indices.nBeta, Index.isBeta, hu, hl]
    have hone : requireOneBody ⟨⟨ty, [u]⟩, ⟨ty, [l]⟩⟩ = .ok () := rfl
    unfold Tensor.make at ht
    rw [hp] at ht
    by_cases hb : u.space.beta = l.space.beta
    · refine ⟨hb, ?_⟩
      rw [if_pos hb] at hsc
      rcases hcls with rfl | rfl | rfl <;>
      · simp only [bind, Except.bind, pure, Except.pure, hsc, hone] at ht
        simpa [eq_comm] using ht
    · rw [if_neg hb] at hsc
      rcases hcls with rfl | rfl | rfl <;>
      · simp [bind, Except.bind, hsc, hone, pure, Except.pure] at ht
  obtain ⟨hb, rfl⟩ := hspin
  rcases hcls with rfl | rfl | rfl
  · refine ⟨_, rfl, ?_⟩
    simpa using downgradeDensity_cumulant u.space l.space hb
  · refine ⟨_, rfl, ?_⟩
    simpa using downgradeDensity_hole u.space l.space hb
  · refine ⟨_, rfl, ?_⟩
    simpa using downgradeDelta_spec u l hb

example : ∃ t, Tensor.make .cumulant ⟨.spinOrbital, [⟨⟨.g, false⟩, 3⟩]⟩ ⟨.spinOrbital, [⟨⟨.p, false⟩, 0⟩]⟩ ['L'] 2 = .ok t ∧
    t.downgradeIndices = .ok (some ⟨.a, false⟩) := ⟨_, rfl, by decide +kernel⟩

/-! ### C18 Tensor constructors reject spin-violating and ill-shaped tensors -/

/-- A label of hole orbitals that are not just the active ones (`c` or `h`, either case). -/
def StrictHole (i : Index) : Prop := (∀ e, i.space.kind.Denotes e → e ≠ .virt) ∧ ∃ e, i.space.kind.Denotes e ∧ e ≠ .active
/-- A label of particle orbitals that are not just the active ones (`v` or `p`, either case). -/
def StrictParticle (i : Index) : Prop :=
  (∀ e, i.space.kind.Denotes e → e ≠ .core) ∧ ∃ e, i.space.kind.Denotes e ∧ e ≠ .active

/-- The documented shape conditions. -/
def ValidShape (cls : TCls) (U L : Indices) : Prop :=
  (cls ≠ .tensor → U.size = L.size ∧ U.nBeta = L.nBeta) ∧
  (cls = .hole ∨ cls = .kronecker → U.size = 1 ∧ L.size = 1) ∧
  (cls = .cluster → (¬ ((∃ i ∈ U.list, StrictHole i) ∧ ∃ i ∈ U.list, StrictParticle i)) ∧
    ¬ ((∃ i ∈ L.list, StrictHole i) ∧ ∃ i ∈ L.list, StrictParticle i))

theorem clusterFlags_hole (k : Kind) (l : List Index) : (clusterFlags k l).1 = true ↔ ∃ i ∈ l, StrictHole i := by
  have key : ∀ kd : Kind, (¬ Space.relation ⟨kd, false⟩ = {⟨.a, false⟩} ∧ Space.relation ⟨kd, false⟩ ⊆ Space.relation ⟨.h, false⟩) ↔
      ((∀ e, kd.Denotes e → e ≠ .virt) ∧ ∃ e, kd.Denotes e ∧ e ≠ .active) := by decide +kernel
  induction l with
  | nil => simp [clusterFlags]
  | cons i l ih =>
    have hk := key i.space.kind
    simp only [clusterFlags, List.exists_mem_cons_iff]
    split
    · rename_i h
      refine ih.trans ?_
      have : ¬ StrictHole i := fun hs => (hk.2 hs).1 h
      simp [this]
    · rename_i h
      simp only [Bool.or_eq_true, ih, decide_eq_true_eq]
      have : StrictHole i ↔ Space.relation ⟨i.space.kind, false⟩ ⊆ Space.relation ⟨.h, false⟩ := by
        unfold StrictHole; rw [← hk]; simp [h]
      rw [this, or_comm]

theorem clusterFlags_part (k : Kind) (l : List Index) : (clusterFlags k l).2.1 = true ↔ ∃ i ∈ l, StrictParticle i := by
  have key : ∀ kd : Kind, (¬ Space.relation ⟨kd, false⟩ = {⟨.a, false⟩} ∧ Space.relation ⟨kd, false⟩ ⊆ Space.relation ⟨.p, false⟩) ↔
      ((∀ e, kd.Denotes e → e ≠ .core) ∧ ∃ e, kd.Denotes e ∧ e ≠ .active) := by decide +kernel
  induction l with
  | nil => simp [clusterFlags]
  | cons i l ih =>
    have hk := key i.space.kind
    simp only [clusterFlags, List.exists_mem_cons_iff]
    split
    · rename_i h
      refine ih.trans ?_
      have : ¬ StrictParticle i := fun hs => (hk.2 hs).1 h
      simp [this]
    · rename_i h
      simp only [Bool.or_eq_true, ih, decide_eq_true_eq]
      have : StrictParticle i ↔ Space.relation ⟨i.space.kind, false⟩ ⊆ Space.relation ⟨.p, false⟩ := by
        unfold StrictParticle; rw [← hk]; simp [h]
      rw [this, or_comm]

theorem requireSpinConserving_eq (pair : IndicesPair) :
    (requireSpinConserving pair = .ok () ∧ pair.upper.size = pair.lower.size ∧ pair.upper.nBeta = pair.lower.nBeta) ∨
    (requireSpinConserving pair = .error .valueError ∧
      ¬ (pair.upper.size = pair.lower.size ∧ pair.upper.nBeta = pair.lower.nBeta)) := by
  unfold requireSpinConserving IndicesPair.isSpinConserving IndicesPair.nUpper IndicesPair.nLower
  by_cases h : pair.upper.size = pair.lower.size
  · by_cases h2 : pair.upper.nBeta = pair.lower.nBeta
    · left; simp [h, h2]
    · right; simp [h, h2]
  · right; simp [h]

theorem clusterTest_eq (k : Kind) (l : List Index) :
    ((∃ b, clusterTest k l = .ok b) ∧ ¬ ((∃ i ∈ l, StrictHole i) ∧ ∃ i ∈ l, StrictParticle i)) ∨
    (clusterTest k l = .error .valueError ∧ ((∃ i ∈ l, StrictHole i) ∧ ∃ i ∈ l, StrictParticle i)) := by
  unfold clusterTest
  rw [← clusterFlags_hole k, ← clusterFlags_part k]
  by_cases h1 : (clusterFlags k l).1 = true <;> by_cases h2 : (clusterFlags k l).2.1 = true <;> simp [h1, h2]

/-- Construction succeeds exactly for the documented shapes and otherwise raises `ValueError` (mixing index kinds raises
`TypeError`). -/
theorem C18_constructors (cls : TCls) (U L : Indices) (name : PyStr) (prio : Int) :
    (U.ty = L.ty → ValidShape cls U L → Tensor.make cls U L name prio = .ok ⟨cls, name, prio, ⟨U, L⟩⟩) ∧
    (U.ty = L.ty → ¬ ValidShape cls U L → Tensor.make cls U L name prio = .error .valueError) ∧
    (U.ty ≠ L.ty → Tensor.make cls U L name prio = .error .typeError) := by
  have hty : U.ty ≠ L.ty → Tensor.make cls U L name prio = .error .typeError := by
    intro h
    have : IndicesPair.make U L = .error .typeError := by simp [IndicesPair.make, h]
    unfold Tensor.make; rw [this]; rfl
  have hboth : U.ty = L.ty → (ValidShape cls U L ∧ Tensor.make cls U L name prio = .ok ⟨cls, name, prio, ⟨U, L⟩⟩) ∨
      (¬ ValidShape cls U L ∧ Tensor.make cls U L name prio = .error .valueError) := by
    intro h
    have hp : IndicesPair.make U L = .ok ⟨U, L⟩ := by simp [IndicesPair.make, h]
    unfold Tensor.make ValidShape
    rw [hp]
    rcases requireSpinConserving_eq ⟨U, L⟩ with ⟨e, h1, h2⟩ | ⟨e, h1⟩
    · cases cls
      · left; exact ⟨by simp, rfl⟩
      · left; refine ⟨by simp_all, ?_⟩; simp only [bind, Except.bind, e]; rfl
      · by_cases hs : U.size = 1 ∧ L.size = 1
        · left; refine ⟨by simp_all, ?_⟩
          have ho : requireOneBody ⟨U, L⟩ = .ok () := if_pos hs
          simp only [bind, Except.bind, pure, Except.pure, ho, e]
        · right; refine ⟨by simp_all, ?_⟩
          have ho : requireOneBody ⟨U, L⟩ = .error .valueError := if_neg hs
          simp only [bind, Except.bind, pure, Except.pure, ho]
      · by_cases hs : U.size = 1 ∧ L.size = 1
        · left; refine ⟨by simp_all, ?_⟩
          have ho : requireOneBody ⟨U, L⟩ = .ok () := if_pos hs
          simp only [bind, Except.bind, pure, Except.pure, ho, e]
        · right; refine ⟨by simp_all, ?_⟩
          have ho : requireOneBody ⟨U, L⟩ = .error .valueError := if_neg hs
          simp only [bind, Except.bind, pure, Except.pure, ho]
      · rcases clusterTest_eq .v U.list with ⟨⟨b, c1⟩, c2⟩ | ⟨c1, c2⟩
        · rcases clusterTest_eq .c L.list with ⟨⟨b', d1⟩, d2⟩ | ⟨d1, d2⟩
          · left; refine ⟨⟨fun _ => ⟨h1, h2⟩, by simp, fun _ => ⟨c2, d2⟩⟩, ?_⟩
            simp only [bind, Except.bind, pure, Except.pure, e, c1, d1]
          · right; refine ⟨fun hh => (hh.2.2 rfl).2 d2, ?_⟩
            simp only [bind, Except.bind, e, c1, d1]
        · right; refine ⟨fun hh => (hh.2.2 rfl).1 c2, ?_⟩
          simp only [bind, Except.bind, e, c1]
      · left; refine ⟨by simp_all, ?_⟩; simp only [bind, Except.bind, e]; rfl
    · cases cls
      · left; exact ⟨by simp, rfl⟩
      · right; refine ⟨fun hh => h1 (hh.1 (by simp)), ?_⟩; simp only [bind, Except.bind, e]
      · right; refine ⟨fun hh => h1 (hh.1 (by simp)), ?_⟩
        by_cases hs : U.size = 1 ∧ L.size = 1
        · have ho : requireOneBody ⟨U, L⟩ = .ok () := if_pos hs
          simp only [bind, Except.bind, ho, e]
        · have ho : requireOneBody ⟨U, L⟩ = .error .valueError := if_neg hs
          simp only [bind, Except.bind, ho]
      · right; refine ⟨fun hh => h1 (hh.1 (by simp)), ?_⟩
        by_cases hs : U.size = 1 ∧ L.size = 1
        · have ho : requireOneBody ⟨U, L⟩ = .ok () := if_pos hs
          simp only [bind, Except.bind, ho, e]
        · have ho : requireOneBody ⟨U, L⟩ = .error .valueError := if_neg hs
          simp only [bind, Except.bind, ho]
      · right; refine ⟨fun hh => h1 (hh.1 (by simp)), ?_⟩; simp only [bind, Except.bind, e]
      · right; refine ⟨fun hh => h1 (hh.1 (by simp)), ?_⟩; simp only [bind, Except.bind, e]
  refine ⟨fun h hv => ?_, fun h hv => ?_, hty⟩
  · rcases hboth h with h' | h'
    · exact h'.2
    · exact absurd hv h'.1
  · rcases hboth h with h' | h'
    · exact absurd h'.1 hv
    · exact h'.2

/-- The many-body rank is the common number of upper and lower labels, and a `ValueError` if the numbers differ. -/
theorem C18_n_body (x : IndicesPair) (n : Nat) :
    (x.nBody = .ok n ↔ x.upper.list.length = n ∧ x.lower.list.length = n) ∧
    (x.nBody = .error .valueError ↔ x.upper.list.length ≠ x.lower.list.length) := by
  unfold IndicesPair.nBody
  change ((if x.lower.list.length ≠ x.upper.list.length then _ else Except.ok x.lower.list.length) = _ ↔ _) ∧
    ((if x.lower.list.length ≠ x.upper.list.length then _ else Except.ok x.lower.list.length) = _ ↔ _)
  split
  · simp; omega
  · simp; omega

theorem clusterFlags_third (k : Kind) (e : Elem) (hk : (k = .v ∧ e = .virt) ∨ (k = .c ∧ e = .core)) (l : List Index) :
    (clusterFlags k l).2.2 = true ↔ ∃ i ∈ l, i.space.kind.Denotes e := by
  have key : ∀ s : Kind, (if Space.relation ⟨s, false⟩ = {⟨.a, false⟩} then false else decide (⟨k, false⟩ ∈ Space.relation ⟨s, false⟩)) = true ↔
      s.Denotes e := by
    rcases hk with ⟨rfl, rfl⟩ | ⟨rfl, rfl⟩ <;> intro s <;> cases s <;> decide
  induction l with
  | nil => simp [clusterFlags]
  | cons i l ih =>
    have e1 : (∃ j ∈ i :: l, j.space.kind.Denotes e) ↔ i.space.kind.Denotes e ∨ ∃ j ∈ l, j.space.kind.Denotes e := by simp
    refine Iff.trans ?_ e1.symm
    refine Iff.trans ?_ (or_congr (key i.space.kind) ih)
    rw [clusterFlags]
    split
    · simp
    · simp [or_comm]

/-- An amplitude counts as an excitation unless an upper label can be virtual or a lower label can be core. -/
theorem C18_excitation (t : Tensor) :
    t.excitation = true ↔ (∀ i ∈ t.upper.list, ¬ i.space.kind.Denotes .virt) ∧ ∀ i ∈ t.lower.list, ¬ i.space.kind.Denotes .core := by
  have h1 := clusterFlags_third .v .virt (Or.inl ⟨rfl, rfl⟩) t.upper.list
  have h2 := clusterFlags_third .c .core (Or.inr ⟨rfl, rfl⟩) t.lower.list
  unfold Tensor.excitation
  rw [Bool.not_eq_true', Bool.or_eq_false_iff, ← Bool.not_eq_true, ← Bool.not_eq_true, h1, h2]
  simp only [not_exists, not_and]

/-- `is_all_active`: every label stands for active orbitals only. -/
theorem C18_all_active (t : Tensor) :
    t.isAllActive = true ↔ ∀ i ∈ t.upper.list ++ t.lower.list, ∀ e, i.space.kind.Denotes e ↔ e = .active := by
  have key : ∀ k : Kind, (k == .a) = true ↔ ∀ e : Elem, k.Denotes e ↔ e = .active := by
    intro k
    constructor
    · intro h e
      obtain rfl : k = .a := by simpa using h
      cases e <;> simp [Kind.Denotes]
    · intro h
      have h1 := h .core
      have h2 := h .virt
      clear h
      cases k <;> simp_all [Kind.Denotes]
  unfold Tensor.isAllActive
  rw [List.all_eq_true]
  simp only [key]
  rfl

/-- The strict hole labels are `c` and `h`, the strict particle labels `v` and `p`. -/
theorem C18_strict_labels (i : Index) : (StrictHole i ↔ i.space.kind = .c ∨ i.space.kind = .h) ∧
    (StrictParticle i ↔ i.space.kind = .v ∨ i.space.kind = .p) := by
  unfold StrictHole StrictParticle
  obtain ⟨⟨k, b⟩, n⟩ := i
  cases k <;> simp <;> decide

example : ∃ t, Tensor.make .cluster ⟨.spinOrbital, [⟨⟨.h, false⟩, 3⟩, ⟨⟨.a, false⟩, 3⟩]⟩ ⟨.spinOrbital, [⟨⟨.p, false⟩, 0⟩, ⟨⟨.a, false⟩, 4⟩]⟩ ['T'] 1 = .ok t :=
  ⟨_, rfl⟩
example : Tensor.make .cluster ⟨.spinOrbital, [⟨⟨.h, false⟩, 3⟩, ⟨⟨.v, false⟩, 3⟩]⟩ ⟨.spinOrbital, [⟨⟨.p, false⟩, 0⟩, ⟨⟨.a, false⟩, 4⟩]⟩ ['T'] 1 =
  .error .valueError := by decide +kernel

end Dsrg
