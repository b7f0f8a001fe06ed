import Verif.Lemmas.WickAlgebra
import Verif.Spec.OpenWindow

/-!
Expectation values of normal-ordered products.
-/

namespace Dsrg

section
variable {α R M : Type} [CommRing R] [AddCommGroup M] [Module R M]

theorem contractionSum_zero (K : List α → R) (n : ℕ) (w : List α) (G : List α → M) (h : ∀ r, r.length ≤ w.length → G r = 0) :
    contractionSum K n w G = 0 := by
  induction n generalizing w G with
  | zero => cases w <;> exact h [] (by simp)
  | succ n ih =>
    cases w with
    | nil => exact h [] (by simp)
    | cons x w =>
      simp only [contractionSum]
      rw [ih w _ fun r hr => h _ (by simpa using hr), zero_add]
      rw [signedChoices_congr w (H := fun _ _ => 0), signedChoices_zero]
      intro S r _ hr _
      rw [ih r _ fun r' hr' => h _ ?_, smul_zero]
      have := hr.length_le
      simp only [List.length_cons]
      omega

theorem contractionSum_whole (K : List α → R) (n : ℕ) (w : List α) (hn : w.length ≤ n) (G : List α → M) (h : ∀ r, r.length < w.length → G r = 0) :
    contractionSum K n w G = G w := by
  induction n generalizing w G with
  | zero =>
    obtain rfl := List.length_eq_zero_iff.mp (Nat.le_zero.mp hn)
    rfl
  | succ n ih =>
    cases w with
    | nil => rfl
    | cons x w =>
      simp only [contractionSum]
      rw [ih w (by simpa using hn) _ fun r hr => h _ (by simpa using hr)]
      rw [signedChoices_congr w (H := fun _ _ => 0), signedChoices_zero, add_zero]
      intro S r _ hr _
      rw [contractionSum_zero K n r _ fun r' hr' => h _ ?_, smul_zero]
      have := hr.length_le
      simp only [List.length_cons]
      omega

end

section
variable {α R A : Type} [CommRing R] [Ring A] [Algebra R A] {field : α → A} {contr : List α → R}

/-- A product of operators as a sum of normal-ordered products. -/
theorem product_contractions (hodd : ∀ w, w.length % 2 = 1 → contr w = 0) (n : ℕ) (w : List α) (hn : w.length ≤ n) :
    (w.map field).prod = contractionSum contr n w (normalOrder field contr) := by
  induction n generalizing w with
  | zero =>
    obtain rfl := List.length_eq_zero_iff.mp (Nat.le_zero.mp hn)
    rfl
  | succ n ih =>
    cases w with
    | nil => rfl
    | cons x w =>
      have hw : w.length ≤ n := by simpa using hn
      rw [List.map_cons, List.prod_cons, ih w hw,
        show field x * contractionSum contr n w (normalOrder field contr) = LinearMap.mulLeft R (field x) (contractionSum contr n w (normalOrder field contr)) from rfl,
        contractionSum_map, contractionSum_cons]
      simp only [LinearMap.mulLeft_apply, field_mul_normalOrder]
      rw [contractionSum_add, contractionSum_comm contr hodd n w hw]
      congr 1
      refine signedChoices_congr _ fun S r _ _ _ => ?_
      rw [show contr (x :: S) • contractionSum contr n r (normalOrder field contr) =
        (contr (x :: S) • (LinearMap.id : A →ₗ[R] A)) (contractionSum contr n r (normalOrder field contr)) from rfl, contractionSum_map]
      rfl

/-- Normal-ordered products have no expectation value if and only if they are defined with the cumulants of the expectation values. -/
theorem cumulants_iff (hodd : ∀ w, w.length % 2 = 1 → contr w = 0) (mean : A →ₗ[R] R) (h1 : mean 1 = 1) :
    IsCumulantOf contr field mean ↔ ∀ w, w ≠ [] → mean (normalOrder field contr w) = 0 := by
  have key : ∀ x w, mean ((x :: w).map field).prod = contractionSum contr w.length w (fun r => mean (normalOrder field contr (x :: r))) +
      signedChoices w fun S r => contr (x :: S) * mean (r.map field).prod := by
    intro x w
    rw [product_contractions hodd (w.length + 1) (x :: w) (by simp), contractionSum_map, contractionSum_cons]
    congr 1
    refine signedChoices_congr _ fun S r _ hr _ => ?_
    rw [product_contractions hodd w.length r hr.length_le, contractionSum_map, smul_eq_mul]
  constructor
  · rintro ⟨-, h⟩ w
    induction hn : w.length using Nat.strong_induction_on generalizing w with
    | _ n ih =>
      intro hw
      cases w with
      | nil => exact absurd rfl hw
      | cons x w =>
        have e := key x w
        rw [h x w] at e
        have e' := (add_eq_right.1 e.symm)
        rw [contractionSum_whole contr w.length w (Nat.le_refl _) _ fun r hr => ih (r.length + 1) (by simp at hn; omega) (x :: r) (by simp) (by simp)] at e'
        exact e'
  · intro h
    refine ⟨h1, fun x w => ?_⟩
    rw [key x w, contractionSum_zero _ _ _ _ fun r _ => h _ (by simp), zero_add]

end

end Dsrg
