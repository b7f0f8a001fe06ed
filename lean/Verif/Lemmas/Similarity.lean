import Mathlib.RingTheory.Nilpotent.Exp
import Mathlib.Algebra.Algebra.Bilinear
import Mathlib.Algebra.Algebra.Operations
import Verif.Lemmas.WickAlgebra
import Verif.Spec.Transformation

/-!
The commutator expansion of a similarity transformation, and powers of excitation operators.
-/

namespace Dsrg

section
variable {A : Type} [Ring A] [Algebra ℚ A]

/-- If the nested commutators end, the expansion is the transformed operator. -/
theorem similarity {x y : A} (hy : IsNilpotent y) {k : Nat} (hk : nestedCommutator x y k = 0) :
    IsNilpotent.exp (-y) * x * IsNilpotent.exp y = ∑ i ∈ Finset.range k, (i.factorial : ℚ)⁻¹ • nestedCommutator x y i := by
  let L : Module.End ℚ A := LinearMap.mulLeft ℚ y
  let R : Module.End ℚ A := LinearMap.mulRight ℚ y
  have hc : Commute L R := LinearMap.ext fun z => (mul_assoc y z y).symm
  obtain ⟨N, hN⟩ := hy
  have hL : ∀ (n : Nat) (z : A), (L ^ n) z = y ^ n * z := by
    intro n z
    rw [LinearMap.pow_mulLeft]
    rfl
  have hR : ∀ (n : Nat) (z : A), (R ^ n) z = z * y ^ n := by
    intro n z
    rw [LinearMap.pow_mulRight]
    rfl
  have nL : IsNilpotent L := ⟨N, LinearMap.ext fun z => by rw [hL, hN, zero_mul]; rfl⟩
  have nR : IsNilpotent R := ⟨N, LinearMap.ext fun z => by rw [hR, hN, mul_zero]; rfl⟩
  have nD : IsNilpotent (R - L) := Commute.isNilpotent_sub hc.symm nR nL
  have hD : ∀ n, ((R - L) ^ n) x = nestedCommutator x y n := by
    intro n
    induction n with
    | zero => rfl
    | succ n ih =>
      rw [pow_succ', Module.End.mul_apply, ih]
      rfl
  have key : IsNilpotent.exp R = IsNilpotent.exp L * IsNilpotent.exp (R - L) := by
    rw [← IsNilpotent.exp_add_of_commute (hc.sub_right (Commute.refl L)) nL nD, add_sub_cancel]
  have eL : ∀ z, IsNilpotent.exp L z = IsNilpotent.exp y * z := by
    intro z
    rw [IsNilpotent.exp_eq_sum (k := N) (LinearMap.ext fun z => by rw [hL, hN, zero_mul]; rfl), IsNilpotent.exp_eq_sum hN, Finset.sum_mul, LinearMap.sum_apply]
    refine Finset.sum_congr rfl fun i _ => ?_
    rw [LinearMap.smul_apply, hL, smul_mul_assoc]
  have eR : ∀ z, IsNilpotent.exp R z = z * IsNilpotent.exp y := by
    intro z
    rw [IsNilpotent.exp_eq_sum (k := N) (LinearMap.ext fun z => by rw [hR, hN, mul_zero]; rfl), IsNilpotent.exp_eq_sum hN, Finset.mul_sum, LinearMap.sum_apply]
    refine Finset.sum_congr rfl fun i _ => ?_
    rw [LinearMap.smul_apply, hR, mul_smul_comm]
  have eD : IsNilpotent.exp (R - L) x = ∑ i ∈ Finset.range k, (i.factorial : ℚ)⁻¹ • nestedCommutator x y i := by
    have := IsNilpotent.exp_smul_eq_sum (a := R - L) (m := x) (k := k) (by rw [Module.End.smul_def, hD, hk]) nD
    rw [Module.End.smul_def] at this
    rw [this]
    exact Finset.sum_congr rfl fun i _ => by rw [Module.End.smul_def, hD]
  have h := congrArg (fun f : Module.End ℚ A => f x) key
  simp only [Module.End.mul_apply, eL, eR, eD] at h
  rw [mul_assoc, h, ← mul_assoc, IsNilpotent.exp_neg_mul_exp_self ⟨N, hN⟩, one_mul]

omit [Algebra ℚ A] in
theorem nestedCommutator_zero {x y : A} {k : Nat} (h : nestedCommutator x y k = 0) (j : Nat) : nestedCommutator x y (k + j) = 0 := by
  induction j with
  | zero => exact h
  | succ j ih => simp [nestedCommutator, ih]

end

section
variable {α R A : Type} [CommRing R] [Ring A] [Algebra R A]

/-- The letters in `S` anticommute. -/
def Anticommute (f : α → A) (S : α → Prop) : Prop := ∀ a b, S a → S b → f a * f b = - (f b * f a)

theorem Anticommute.move {f : α → A} {S : α → Prop} (h : Anticommute f S) {a : α} (ha : S a) : ∀ {l : List α}, (∀ b ∈ l, S b) →
    f a * (l.map f).prod = (-1 : ℤ) ^ l.length • ((l.map f).prod * f a) := by
  intro l
  induction l with
  | nil => simp
  | cons b l ih =>
    intro hl
    rw [List.map_cons, List.prod_cons, ← mul_assoc, h a b ha (hl b (by simp)), neg_mul, mul_assoc, ih fun c hc => hl c (by simp [hc]),
      List.length_cons, pow_succ, mul_comm, mul_smul, mul_smul_comm, neg_one_smul, mul_assoc]

theorem Anticommute.repeated [Algebra ℚ A] {f : α → A} {S : α → Prop} (h : Anticommute f S) : ∀ {w : List α}, (∀ b ∈ w, S b) → ¬ w.Nodup →
    (w.map f).prod = 0 := by
  intro w
  induction w with
  | nil => simp
  | cons a w ih =>
    intro hw hn
    have hw' : ∀ b ∈ w, S b := fun b hb => hw b (by simp [hb])
    by_cases ha : a ∈ w
    · obtain ⟨l₁, l₂, rfl⟩ := List.append_of_mem ha
      have hsq : f a * f a = 0 := by
        have h2 := h a a (hw a (by simp)) (hw a (by simp))
        have h3 : (2 : ℚ) • (f a * f a) = 0 := by
          rw [two_smul]
          nth_rewrite 1 [h2]
          exact neg_add_cancel _
        exact (smul_eq_zero.1 h3).resolve_left (by norm_num)
      rw [List.map_cons, List.prod_cons, List.map_append, List.prod_append, ← mul_assoc, h.move (hw a (by simp)) fun b hb => hw' b (by simp [hb]),
        List.map_cons, List.prod_cons, smul_mul_assoc, mul_assoc, ← mul_assoc (f a), hsq]
      simp
    · rw [List.map_cons, List.prod_cons, ih hw' fun h => hn (List.nodup_cons.2 ⟨ha, h⟩), mul_zero]

/-- The combinations of words of at least `n` letters in `S`. -/
def wordSpan (R : Type) [CommRing R] [Algebra R A] (f : α → A) (S : α → Prop) (n : Nat) : Submodule R A :=
  Submodule.span R {p | ∃ w : List α, (∀ a ∈ w, S a) ∧ n ≤ w.length ∧ p = (w.map f).prod}

theorem wordSpan_mul {f : α → A} {S : α → Prop} {a b : Nat} {x y : A} (hx : x ∈ wordSpan R f S a) (hy : y ∈ wordSpan R f S b) :
    x * y ∈ wordSpan R f S (a + b) := by
  have h := Submodule.mul_mem_mul hx hy
  unfold wordSpan at h
  rw [Submodule.span_mul_span] at h
  refine Submodule.span_mono ?_ h
  rintro z ⟨p, ⟨w, h1, h2, rfl⟩, q, ⟨w', h1', h2', rfl⟩, rfl⟩
  refine ⟨w ++ w', ?_, ?_, by simp⟩
  · intro c hc
    rcases List.mem_append.1 hc with hc | hc
    · exact h1 c hc
    · exact h1' c hc
  · rw [List.length_append]
    omega

theorem wordSpan_pow {f : α → A} {S : α → Prop} {x : A} (hx : x ∈ wordSpan R f S 1) (n : Nat) : x ^ n ∈ wordSpan R f S n := by
  induction n with
  | zero => exact Submodule.subset_span ⟨[], by simp, by simp, by simp⟩
  | succ n ih =>
    rw [pow_succ]
    exact wordSpan_mul ih hx

theorem nilpotent_of_span [Fintype α] [Algebra ℚ A] {f : α → A} {S : α → Prop} (h : Anticommute f S) {x : A} (hx : x ∈ wordSpan R f S 1) :
    IsNilpotent x := by
  refine ⟨Fintype.card α + 1, ?_⟩
  have h1 := wordSpan_pow hx (Fintype.card α + 1)
  have h2 : wordSpan R f S (Fintype.card α + 1) ≤ ⊥ := by
    refine Submodule.span_le.2 ?_
    rintro p ⟨w, hw, hl, rfl⟩
    refine h.repeated hw fun hn => ?_
    have := hn.length_le_card
    omega
  exact (Submodule.mem_bot R).1 (h2 h1)

/-- Without contractions the normal-ordered product is the product. -/
theorem normalOrder_plain {field : α → A} {contr : List α → R} {S : α → Prop} (h : ∀ s : List α, s ≠ [] → (∀ a ∈ s, S a) → contr s = 0) :
    ∀ {n : Nat} {w : List α}, w.length ≤ n → (∀ a ∈ w, S a) → normalOrderUpTo field contr n w = (w.map field).prod := by
  intro n
  induction n with
  | zero =>
    intro w hw _
    obtain rfl : w = [] := List.length_eq_zero_iff.1 (by omega)
    simp [normalOrderUpTo]
  | succ n ih =>
    intro w hw hS
    cases w with
    | nil => simp [normalOrderUpTo]
    | cons x w =>
      have hS' : ∀ a ∈ w, S a := fun a ha => hS a (by simp [ha])
      have e : (signedChoices w fun T r => contr (x :: T) • normalOrderUpTo field contr n r) = 0 := by
        rw [signedChoices_congr w (H := fun _ _ => 0), signedChoices_zero]
        intro T r hT _ _
        rw [h (x :: T) (by simp) ?_, zero_smul]
        intro a ha
        rcases List.mem_cons.1 ha with rfl | ha
        · exact hS a (by simp)
        · exact hS' a (hT.subset ha)
      rw [normalOrderUpTo, e, sub_zero, ih (by simp at hw; omega) hS', List.map_cons, List.prod_cons]

end

section
variable {O R A : Type} [Fintype O] [DecidableEq O] [CommRing R] [Algebra ℚ R] [Ring A] [Algebra R A]

/-- Annihilation operators of core orbitals and creation operators of virtual orbitals. -/
def Excites (orb : Orbitals O) (x : Bool × O) : Prop := if x.1 then orb.elem x.2 = .virt else orb.elem x.2 = .core

omit [Fintype O] [Algebra ℚ R] in
theorem anticommute_excites {orb : Orbitals O} {field : Bool × O → A} (h : Fermions field) : Anticommute field (Excites orb) := by
  rintro ⟨b, x⟩ ⟨b', y⟩ hx hy
  rw [eq_neg_iff_add_eq_zero]
  cases b <;> cases b'
  · exact h.same false x y
  · rw [h.mixed, if_neg]
    rintro rfl
    simp [Excites] at hx hy
    rw [hx] at hy
    cases hy
  · rw [add_comm, h.mixed, if_neg]
    rintro rfl
    simp [Excites] at hx hy
    rw [hx] at hy
    cases hy
  · exact h.same true x y

omit [Fintype O] [Algebra ℚ R] in
theorem contraction_excites {orb : Orbitals O} {I : Interp O R A} (hph : I.Physical orb) (hac : I.ActiveCumulants orb) :
    ∀ s : List (Bool × O), s ≠ [] → (∀ a ∈ s, Excites orb a) → I.contraction s = 0 := by
  intro s hne hs
  clear hne
  unfold Interp.contraction
  split
  · rename_i x y
    have hx := hs (true, x) (by simp)
    exact hph.dens _ _ _ (Or.inl (by simpa [Excites] using hx))
  · rename_i x y
    have hx := hs (false, x) (by simp)
    have hy := hs (true, y) (by simp)
    simp only [Excites, Bool.false_eq_true, if_false, if_true] at hx hy
    rw [hph.hole, hph.dens _ _ _ (Or.inl hy), if_neg]
    · simp
    · rintro rfl
      rw [hx] at hy
      cases hy
  · split
    · rename_i hcond
      obtain ⟨h4, heq⟩ := hcond
      have hlen : ∀ w : List (Bool × O), (orbitalsOf true w).length + (orbitalsOf false w).length = w.length := by
        intro w
        induction w with
        | nil => rfl
        | cons a w ih =>
          obtain ⟨b, x⟩ := a
          cases b <;> simp [orbitalsOf] at ih ⊢ <;> omega
      have := hlen s
      rw [hac _ _ _ (by omega) ?_, mul_zero]
      have hpos : 0 < (orbitalsOf true s).length := by omega
      obtain ⟨x, hx⟩ := List.exists_mem_of_length_pos hpos
      refine ⟨x, by simp [hx], ?_⟩
      unfold orbitalsOf at hx
      obtain ⟨⟨b, y⟩, hy, e⟩ := List.mem_filterMap.1 hx
      cases b
      · simp at e
      · simp only [if_true, Option.some.injEq] at e
        subst e
        have := hs _ hy
        simp only [Excites, if_true] at this
        rw [this]
        decide
    · rfl

theorem excitation_span {orb : Orbitals O} {I : Interp O R A} (hph : I.Physical orb) (hac : I.ActiveCumulants orb)
    {field : Bool × O → A} (hno : I.NormalOrdered field) {k : Nat} (hk : 1 ≤ k) : I.excitation orb true k ∈ wordSpan R field (Excites orb) 1 := by
  unfold Interp.excitation
  refine Submodule.smul_mem _ _ (Submodule.sum_mem _ fun h hh => Submodule.sum_mem _ fun p hp => Submodule.smul_mem _ _ ?_)
  have hw : ∀ a ∈ (List.ofFn p).map (fun x => (true, x)) ++ (List.ofFn h).reverse.map fun x => (false, x), Excites orb a := by
    intro a ha
    rcases List.mem_append.1 ha with ha | ha
    · obtain ⟨x, hx, rfl⟩ := List.mem_map.1 ha
      obtain ⟨i, rfl⟩ := List.mem_ofFn.1 hx
      have := Fintype.mem_piFinset.1 hp i
      simpa [Orbitals.particles, Excites] using (Finset.mem_filter.1 this).2.2
    · obtain ⟨x, hx, rfl⟩ := List.mem_map.1 ha
      obtain ⟨i, rfl⟩ := List.mem_ofFn.1 (List.mem_reverse.1 hx)
      have := Fintype.mem_piFinset.1 hh i
      simpa [Orbitals.holes, Excites] using (Finset.mem_filter.1 this).2.2
  rw [hno]
  unfold normalOrder
  rw [normalOrder_plain (contraction_excites hph hac) le_rfl hw]
  refine Submodule.subset_span ⟨_, hw, ?_, rfl⟩
  simp
  omega

/-- Excitation operators of a single determinant are nilpotent. -/
theorem generator_nilpotent [Algebra ℚ A] {orb : Orbitals O} {I : Interp O R A} (hph : I.Physical orb) (hac : I.ActiveCumulants orb)
    {field : Bool × O → A} (hfield : Fermions field) (hno : I.NormalOrdered field) {levels : List Nat} (hk : ∀ k ∈ levels, 1 ≤ k) :
    IsNilpotent (I.generator orb true false levels) := by
  refine nilpotent_of_span (R := R) (anticommute_excites (orb := orb) hfield) ?_
  unfold Interp.generator
  simp only [Bool.false_eq_true, if_false, sub_zero]
  refine list_sum_mem fun x hx => ?_
  obtain ⟨k, hkl, rfl⟩ := List.mem_map.1 hx
  exact excitation_span hph hac hno (hk k hkl)

end

end Dsrg
