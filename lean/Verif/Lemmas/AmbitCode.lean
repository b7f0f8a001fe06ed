import Verif.Lemmas.Ambit
import Verif.Lemmas.SumLabels
import Verif.Spec.AmbitCode
import Mathlib.Algebra.BigOperators.Group.Finset.Sigma
import Mathlib.Algebra.Module.BigOperators

/-!
Effect of the generated statements.
-/

namespace Dsrg

theorem exists_ofFn {O : Type} {n : Nat} (l : List O) (h : l.length = n) : ∃ f : Fin n → O, List.ofFn f = l := by
  subst h; exact ⟨l.get, List.ofFn_get l⟩

section
variable {O R M : Type} [Fintype O] [DecidableEq O] [Inhabited O] [CommRing R] [Algebra ℚ R] [AddCommGroup M] [Module R M]

/-- The operator of an array that is filled from assignments. -/
theorem operator_scatter {T : Type} (I : Interp O R M) {n m : Nat} (s : Finset T) (φ : T → Index → O) (w1 w2 : List Index)
    (h1 : w1.length = n) (h2 : w2.length = m) (f : T → R) :
    I.operator n m (fun os => ∑ σ ∈ s, if (w1 ++ w2).map (φ σ) = os then f σ else 0) =
      ∑ σ ∈ s, f σ • I.op (w2.map (φ σ)) (w1.map (φ σ)) := by
  unfold Interp.operator
  simp only [Finset.sum_smul]
  rw [Finset.sum_congr rfl fun l _ => Finset.sum_comm, Finset.sum_comm]
  refine Finset.sum_congr rfl fun σ _ => ?_
  obtain ⟨l0, hl0⟩ := exists_ofFn (w1.map (φ σ)) (by simpa using h1)
  obtain ⟨u0, hu0⟩ := exists_ofFn (w2.map (φ σ)) (by simpa using h2)
  have hcond : ∀ (l : Fin n → O) (u : Fin m → O), (w1 ++ w2).map (φ σ) = List.ofFn l ++ List.ofFn u ↔ l = l0 ∧ u = u0 := by
    intro l u
    rw [List.map_append, ← hl0, ← hu0]
    constructor
    · intro h
      obtain ⟨e1, e2⟩ := List.append_inj h (by simp)
      exact ⟨(List.ofFn_injective e1).symm, (List.ofFn_injective e2).symm⟩
    · rintro ⟨rfl, rfl⟩; rfl
  simp only [hcond]
  rw [Finset.sum_eq_single l0, Finset.sum_eq_single u0]
  · rw [if_pos ⟨rfl, rfl⟩, hl0, hu0]
  · intro u _ hu; rw [if_neg (fun h => hu h.2), zero_smul]
  · simp
  · intro l _ hl
    exact Finset.sum_eq_zero fun u _ => by rw [if_neg (fun h => hl h.1), zero_smul]
  · simp

theorem operator_add (I : Interp O R M) (n m : Nat) (A B : List O → R) :
    I.operator n m (fun os => A os + B os) = I.operator n m A + I.operator n m B := by
  unfold Interp.operator
  simp only [add_smul, Finset.sum_add_distrib]

theorem operator_smul (I : Interp O R M) (n m : Nat) (r : R) (A : List O → R) :
    I.operator n m (fun os => r * A os) = r • I.operator n m A := by
  unfold Interp.operator
  simp only [mul_smul, Finset.smul_sum]

theorem operator_zero (I : Interp O R M) (n m : Nat) : I.operator n m (fun _ => (0 : R)) = 0 := by
  unfold Interp.operator
  simp

theorem operator_sum {T : Type} (I : Interp O R M) (n m : Nat) (l : List T) (A : T → List O → R) :
    I.operator n m (fun os => (l.map fun t => A t os).sum) = (l.map fun t => I.operator n m (A t)).sum := by
  induction l with
  | nil => simpa using operator_zero I n m
  | cons t l ih => simp only [List.map_cons, List.sum_cons]; rw [operator_add, ih]

/-- Restricting an assignment to some of the labels. -/
theorem sum_restrict (orb : Orbitals O) {S L : Finset Index} (hL : L ⊆ S) (w v : List Index) (hw : ∀ i ∈ w, i ∈ L)
    (hv : ∀ i, i ∈ v ↔ i ∈ L) (os : List O) (f : (S → O) → R) :
    (∑ σ ∈ orb.assignments L, if w.map (extendTo σ) = os then
        ∑ τ ∈ orb.assignments S, (if v.map (extendTo τ) = v.map (extendTo σ) then f τ else 0) else 0) =
      ∑ τ ∈ orb.assignments S, if w.map (extendTo τ) = os then f τ else 0 := by
  have e1 : ∀ σ : L → O, (if w.map (extendTo σ) = os then
        ∑ τ ∈ orb.assignments S, (if v.map (extendTo τ) = v.map (extendTo σ) then f τ else 0) else 0) =
      ∑ τ ∈ orb.assignments S, if w.map (extendTo σ) = os then
        (if v.map (extendTo τ) = v.map (extendTo σ) then f τ else 0) else 0 := by
    intro σ
    split_ifs <;> simp
  simp only [e1]
  rw [Finset.sum_comm]
  refine Finset.sum_congr rfl fun τ hτ => ?_
  let σ0 : L → O := fun i => extendTo τ i.1
  have hσ0 : ∀ i ∈ L, extendTo σ0 i = extendTo τ i := fun i hi => by rw [extendTo_mem σ0 hi]
  rw [Finset.sum_eq_single σ0]
  · have a1 : w.map (extendTo σ0) = w.map (extendTo τ) := List.map_congr_left fun i hi => hσ0 i (hw i hi)
    have a2 : v.map (extendTo σ0) = v.map (extendTo τ) := List.map_congr_left fun i hi => hσ0 i ((hv i).1 hi)
    rw [a1, a2]; simp
  · intro σ _ hne
    have : v.map (extendTo τ) ≠ v.map (extendTo σ) := by
      intro h
      apply hne
      funext i
      have h' := List.map_inj_left.1 h i.1 ((hv i.1).2 i.2)
      show σ i = extendTo τ i.1
      rw [h', extendTo_mem σ i.2]
    rw [if_neg this]; simp
  · intro h
    exfalso; apply h
    rw [Orbitals.mem_assignments]
    intro i
    exact Orbitals.extend_in hτ (hL i.2)

end

/-! ### Names -/

theorem natStr_last (n : Nat) : ∃ d < 10, (natStr n).getLast? = some (digitChar d) := by
  rw [natStr]
  split_ifs with h
  · exact ⟨n, h, rfl⟩
  · exact ⟨n % 10, Nat.mod_lt _ (by decide), by simp⟩

theorem append_natStr_ne (pre : PyStr) (n : Nat) : pre ++ natStr n ≠ tempName := by
  intro h
  obtain ⟨d, hd, hl⟩ := natStr_last n
  have : (pre ++ natStr n).getLast? = some (digitChar d) := by
    rw [List.getLast?_append, hl]; rfl
  rw [h] at this
  have : 'p' = digitChar d := by
    have e : tempName.getLast? = some 'p' := rfl
    rw [e] at this; injection this
  revert this
  have : ∀ d < 10, 'p' ≠ digitChar d := by decide
  exact this d hd

theorem Tensor.arrayName_ne (x : Tensor) : x.arrayName ≠ tempName := by
  unfold Tensor.arrayName
  split_ifs
  · exact append_natStr_ne _ _
  · exact append_natStr_ne _ _

theorem targetName_ne (name : PyStr) (op : SqOp) : targetName name op ≠ tempName := by
  unfold targetName
  split_ifs
  · exact append_natStr_ne _ _
  · exact append_natStr_ne _ _

/-! ### Reading the factors -/

theorem Tensor.balanced_of_constructed {x : Tensor} (h : x.Constructed) (hc : x.cls ≠ .tensor) :
    x.upper.list.length = x.lower.list.length := by
  by_contra hne
  have hr : requireSpinConserving ⟨x.upper, x.lower⟩ = .error .valueError := by
    unfold requireSpinConserving IndicesPair.isSpinConserving
    rw [if_neg]
    exact hne
  have := h.2.2
  unfold Tensor.make at this
  simp only [bind, Except.bind] at this
  cases hp : IndicesPair.make x.upper x.lower with
  | error e => rw [hp] at this; cases this
  | ok pair =>
    obtain ⟨rfl, -⟩ := IndicesPair.make_eq hp
    rw [hp] at this
    cases hcls : x.cls with
    | tensor => exact hc hcls
    | cumulant => rw [hcls] at this; simp only [hr] at this; cases this
    | hole =>
      rw [hcls] at this
      cases h1 : requireOneBody ⟨x.upper, x.lower⟩ with
      | error e => simp only [h1] at this; cases this
      | ok v => simp only [h1, hr] at this; cases this
    | kronecker =>
      rw [hcls] at this
      cases h1 : requireOneBody ⟨x.upper, x.lower⟩ with
      | error e => simp only [h1] at this; cases this
      | ok v => simp only [h1, hr] at this; cases this
    | cluster => rw [hcls] at this; simp only [hr] at this; cases this
    | hamiltonian => rw [hcls] at this; simp only [hr] at this; cases this

section
variable {O R M : Type} [Fintype O] [DecidableEq O] [Inhabited O] [CommRing R] [Algebra ℚ R] [AddCommGroup M] [Module R M]

theorem read_factor {s : Store O R} {I : Interp O R M} {ts : List Tensor} (hs : ArraysHold s I ts) (hH : I.Hermitian) {x : Tensor}
    (hx : x ∈ ts) (hc : x.Constructed) (σ : Index → O) : s x.arrayName (x.arrayLabels.map σ) = I.tval σ x := by
  unfold Tensor.arrayLabels Interp.tval
  split_ifs with h
  · have hb := Tensor.balanced_of_constructed hc (by rw [h.1]; decide)
    rw [List.map_append, hs x hx _ _ (by simpa using hb.symm) (by simpa using hb), hH]
  · rw [List.map_append, hs x hx _ _ (by simp) (by simp)]

theorem read_factors {s : Store O R} {I : Interp O R M} {ts : List Tensor} (hs : ArraysHold s I ts) (hH : I.Hermitian)
    (hc : ∀ x ∈ ts, x.Constructed) (σ : Index → O) :
    ((ts.map Tensor.arrayRef).map fun r => s r.name (r.labels.map σ)).prod = I.pval σ ts := by
  unfold Interp.pval
  rw [List.map_map]
  congr 1
  exact List.map_congr_left fun x hx => read_factor hs hH hx (hc x hx) σ

theorem arrayLabels_perm (x : Tensor) : x.arrayLabels.Perm (x.upper.list ++ x.lower.list) := by
  unfold Tensor.arrayLabels
  split_ifs
  · exact List.perm_append_comm
  · exact List.Perm.refl _

theorem statementLabels_term (ts : List Tensor) (op : SqOp) (name : PyStr) (w : List Index)
    (hw : ∀ i, i ∈ w ↔ i ∈ op.upper.list ∨ i ∈ op.lower.list) :
    statementLabels ⟨name, w⟩ (ts.map Tensor.arrayRef) = labelsOf ts op := by
  ext i
  unfold statementLabels
  rw [List.mem_toFinset, mem_labelsOf, mem_labelList, List.mem_append, List.mem_flatMap]
  constructor
  · rintro (h | ⟨r, hr, hi⟩)
    · exact Or.inl (List.mem_append.2 ((hw i).1 h))
    · obtain ⟨x, hx, rfl⟩ := List.mem_map.1 hr
      exact Or.inr ⟨x, hx, (arrayLabels_perm x).mem_iff.1 hi⟩
  · rintro (h | ⟨x, hx, hi⟩)
    · exact Or.inl ((hw i).2 (List.mem_append.1 h))
    · exact Or.inr ⟨_, List.mem_map.2 ⟨x, hx, rfl⟩, (arrayLabels_perm x).mem_iff.2 hi⟩

/-! ### The statements -/

/-- The array filled by one statement of a term: `w` are the labels on the left. -/
def scatter (orb : Orbitals O) (I : Interp O R M) (ts : List Tensor) (op : SqOp) (w : List Index) (os : List O) : R :=
  ∑ τ ∈ orb.assignments (labelsOf ts op), if w.map (extendTo τ) = os then I.pval (extendTo τ) ts else 0

/-- `lhs += c * r1 * r2 ...` with the factors of a term. -/
theorem exec_term (orb : Orbitals O) (s : Store O R) {I : Interp O R M} {ts : List Tensor} {op : SqOp} (hs : ArraysHold s I ts) (hH : I.Hermitian)
    (hc : ∀ x ∈ ts, x.Constructed) (name : PyStr) (w : List Index) (hw : ∀ i, i ∈ w ↔ i ∈ op.upper.list ∨ i ∈ op.lower.list) (plus : Bool)
    (c : ℚ) : AmbitStmt.exec orb s (.update ⟨name, w⟩ plus c (ts.map Tensor.arrayRef)) =
      Function.update s name fun os => s name os + (if plus then 1 else -1) * (algebraMap ℚ R c * scatter orb I ts op w os) := by
  unfold AmbitStmt.exec
  simp only
  congr 1
  funext os
  unfold scatter
  rw [statementLabels_term ts op name w hw]
  simp only [read_factors hs hH hc]

theorem runCode_cons (orb : Orbitals O) (s : Store O R) (a : AmbitStmt) (p : List AmbitStmt) :
    runCode orb s (a :: p) = runCode orb (a.exec orb s) p := rfl

theorem runCode_append (orb : Orbitals O) (s : Store O R) (p q : List AmbitStmt) :
    runCode orb s (p ++ q) = runCode orb (runCode orb s p) q := List.foldl_append

/-- `lhs ±= temp` for all rows. -/
theorem run_rows (orb : Orbitals O) (s : Store O R) (target : PyStr) (ht : target ≠ tempName) (L : List Index)
    (rows : List (Int × List Index × List Index)) (hr : ∀ r ∈ rows, (r.2.1 ++ r.2.2).Perm L) (hsgn : ∀ r ∈ rows, r.1 = 1 ∨ r.1 = -1) :
    (∀ nm, nm ≠ target → runCode orb s (rows.map fun r => AmbitStmt.update ⟨target, r.2.1 ++ r.2.2⟩ (decide (r.1 = 1)) 1 [⟨tempName, L⟩]) nm
      = s nm) ∧
    ∀ os, runCode orb s (rows.map fun r => AmbitStmt.update ⟨target, r.2.1 ++ r.2.2⟩ (decide (r.1 = 1)) 1 [⟨tempName, L⟩]) target os =
      s target os + (rows.map fun r => (r.1 : R) * ∑ σ ∈ orb.assignments L.toFinset,
        if (r.2.1 ++ r.2.2).map (extendTo σ) = os then s tempName (L.map (extendTo σ)) else 0).sum := by
  induction rows generalizing s with
  | nil => exact ⟨fun _ _ => rfl, fun os => by simp [runCode]⟩
  | cons r rows ih =>
    obtain ⟨i1, i2⟩ := ih (AmbitStmt.exec orb s (.update ⟨target, r.2.1 ++ r.2.2⟩ (decide (r.1 = 1)) 1 [⟨tempName, L⟩]))
      (fun r' h => hr r' (List.mem_cons_of_mem _ h)) (fun r' h => hsgn r' (List.mem_cons_of_mem _ h))
    have hset : statementLabels ⟨target, r.2.1 ++ r.2.2⟩ [⟨tempName, L⟩] = L.toFinset := by
      ext i
      unfold statementLabels
      simp only [List.flatMap_cons, List.flatMap_nil, List.append_nil, List.mem_toFinset, List.mem_append]
      constructor
      · rintro (h | h)
        · exact (hr r (by simp)).mem_iff.1 (List.mem_append.2 h)
        · exact h
      · exact Or.inr
    constructor
    · intro nm hne
      rw [List.map_cons]
      rw [runCode_cons, i1 nm hne]
      unfold AmbitStmt.exec
      exact Function.update_of_ne hne _ _
    · intro os
      rw [List.map_cons]
      rw [runCode_cons, i2 os]
      have htemp : AmbitStmt.exec orb s (.update ⟨target, r.2.1 ++ r.2.2⟩ (decide (r.1 = 1)) 1 [⟨tempName, L⟩]) tempName = s tempName := by
        unfold AmbitStmt.exec
        exact Function.update_of_ne ht.symm _ _
      rw [htemp]
      have hself : AmbitStmt.exec orb s (.update ⟨target, r.2.1 ++ r.2.2⟩ (decide (r.1 = 1)) 1 [⟨tempName, L⟩]) target os =
          s target os + (r.1 : R) * ∑ σ ∈ orb.assignments L.toFinset,
            if (r.2.1 ++ r.2.2).map (extendTo σ) = os then s tempName (L.map (extendTo σ)) else 0 := by
        have hsg : (if decide (r.1 = 1) = true then (1 : R) else -1) = (r.1 : R) := by
          rcases hsgn r (by simp) with h | h <;> simp [h]
        unfold AmbitStmt.exec
        simp only [Function.update_self, hsg, map_one, one_mul, List.map_cons, List.map_nil, List.prod_cons, List.prod_nil, mul_one]
        rw [hset]
      rw [hself, List.map_cons, List.sum_cons, add_assoc]

end

end Dsrg
