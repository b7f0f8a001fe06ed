import Verif.Model.Itertools
import Verif.Model.Indices
import Verif.Spec.Antisymm
import Mathlib.Algebra.Group.Basic
import Mathlib.Algebra.Ring.Parity
import Mathlib.Algebra.Module.Basic
import Mathlib.Data.List.NodupEquivFin
import Mathlib.Tactic.Ring
import Mathlib.Algebra.BigOperators.Fin

/-!
Signs of rearrangements: inversion counts, antisymmetric functions of lists.
-/

namespace Dsrg

theorem signPow_add (m n : Nat) : signPow (m + n) = signPow m * signPow n := by
  simp [signPow, pow_add]

theorem signPow_zero : signPow 0 = 1 := rfl

theorem signPow_succ (n : Nat) : signPow (n + 1) = - signPow n := by
  simp [signPow, pow_succ]

theorem signPow_sq (n : Nat) : signPow n * signPow n = 1 := by
  rw [← signPow_add, ← two_mul]; simp [signPow]

theorem signPow_eq (n : Nat) : signPow n = 1 ∨ signPow n = -1 := by
  induction n with
  | zero => left; rfl
  | succ n ih => rw [signPow_succ]; rcases ih with h | h <;> rw [h] <;> simp

theorem signPow_congr {m n : Nat} (h : m % 2 = n % 2) : signPow m = signPow n := by
  have key : ∀ k, signPow k = signPow (k % 2) := by
    intro k
    conv_lhs => rw [← Nat.div_add_mod k 2, signPow_add]
    simp [signPow, pow_mul]
  rw [key m, key n, h]

theorem signPow_eq_iff {m n : Nat} : signPow m = signPow n ↔ m % 2 = n % 2 := by
  constructor
  · intro h
    have key : ∀ k, signPow k = signPow (k % 2) := fun k => signPow_congr (by omega)
    rw [key m, key n] at h
    rcases Nat.mod_two_eq_zero_or_one m with h1 | h1 <;> rcases Nat.mod_two_eq_zero_or_one n with h2 | h2 <;>
      rw [h1, h2] at h ⊢ <;> revert h <;> decide
  · exact signPow_congr

section Inv
variable {α : Type} [LinearOrder α]

theorem invCount_append (xs ys : List α) :
    invCount (xs ++ ys) = invCount xs + invCount ys + (xs.map fun x => ys.countP (· < x)).sum := by
  induction xs with
  | nil => simp [invCount]
  | cons x xs ih =>
    simp only [List.cons_append, invCount, List.countP_append, ih, List.map_cons, List.sum_cons]
    omega

theorem invCount_eq_zero_of_sorted {l : List α} (h : l.Pairwise (· ≤ ·)) : invCount l = 0 := by
  induction l with
  | nil => rfl
  | cons x xs ih =>
    rw [List.pairwise_cons] at h
    rw [invCount, ih h.2, List.countP_eq_zero.2]
    intro y hy
    simpa using h.1 y hy

theorem sorted_of_invCount_eq_zero {l : List α} (h : invCount l = 0) : l.Pairwise (· ≤ ·) := by
  induction l with
  | nil => simp
  | cons x xs ih =>
    rw [invCount] at h
    rw [List.pairwise_cons]
    refine ⟨?_, ih (by omega)⟩
    intro y hy
    have h0 : xs.countP (fun y => decide (y < x)) = 0 := by omega
    rw [List.countP_eq_zero] at h0
    simpa using h0 y hy

theorem cross_perm_left {xs xs' ys : List α} (h : xs.Perm xs') :
    (xs.map fun x => ys.countP (· < x)).sum = (xs'.map fun x => ys.countP (· < x)).sum :=
  (h.map _).sum_eq

theorem cross_perm_right {xs ys ys' : List α} (h : ys.Perm ys') :
    (xs.map fun x => ys.countP (· < x)).sum = (xs.map fun x => ys'.countP (· < x)).sum := by
  have : (fun x : α => ys.countP (· < x)) = fun x => ys'.countP (· < x) := by
    funext x; exact h.countP_eq _
  rw [this]

/-- Swapping two unequal neighbours changes the inversion count by one. -/
theorem invCount_swap (pre post : List α) (a b : α) (hab : a < b) :
    invCount (pre ++ b :: a :: post) = invCount (pre ++ a :: b :: post) + 1 := by
  rw [invCount_append, invCount_append, cross_perm_right (List.Perm.swap a b post)]
  simp only [invCount, List.countP_cons]
  have h1 : ¬ b < a := not_lt.2 hab.le
  simp [hab, h1]
  omega

theorem signInv_swap (pre post : List α) (a b : α) (hab : a ≠ b) :
    signPow (invCount (pre ++ b :: a :: post)) = - signPow (invCount (pre ++ a :: b :: post)) := by
  rcases lt_or_gt_of_ne hab with h | h
  · rw [invCount_swap pre post a b h, signPow_succ]
  · rw [invCount_swap pre post b a h, signPow_succ, neg_neg]

end Inv

section Anti
variable {ι M : Type} [AddCommGroup M] {F : List ι → M}

theorem signPow_smul_smul (n : Nat) (m : M) : signPow n • signPow n • m = m := by
  rw [smul_smul, signPow_sq, one_smul]

/-- Two antisymmetric functions, one of them integer valued, have a product that does not depend on the order. -/
theorem AntisymmFn.smul_eq (hF : AntisymmFn F) {S : List ι → Int} (hS : AntisymmFn S) {b b' : List ι} (h : b.Perm b') :
    ∀ pre, (pre ++ b).Nodup → S (pre ++ b) • F (pre ++ b) = S (pre ++ b') • F (pre ++ b') := by
  induction h with
  | nil => intro pre _; rfl
  | cons x _ ih =>
    intro pre hn
    have := ih (pre ++ [x]) (by simpa using hn)
    simpa using this
  | swap x y l =>
    intro pre hn
    rw [hF pre l y x hn, hS pre l y x hn, neg_smul, smul_neg, neg_neg]
  | trans h1 _ ih1 ih2 =>
    intro pre hn
    rw [ih1 pre hn, ih2 pre (((h1.append_left pre).nodup_iff).1 hn)]

theorem AntisymmFn.eq_smul (hF : AntisymmFn F) {S : List ι → Int} (hS : AntisymmFn S) {b b' : List ι} (h : b.Perm b')
    (hn : b.Nodup) (h1 : S b = 1) : F b = S b' • F b' := by
  have := hF.smul_eq hS h [] hn
  simpa [h1] using this

end Anti

/-- The parity of an inversion count is antisymmetric. -/
theorem antisymmFn_sign {α : Type} [LinearOrder α] : AntisymmFn fun l : List α => signPow (invCount l) := by
  intro pre post a b hn
  apply signInv_swap
  rw [List.nodup_append] at hn
  have := hn.2.1
  simp at this
  exact this.1.1

/-- Sorting a list without repeats multiplies an antisymmetric function by the parity of the inversion count. -/
theorem AntisymmFn.sorted {ι M : Type} [AddCommGroup M] [LinearOrder ι] {F : List ι → M} (hF : AntisymmFn F)
    {l s : List ι} (hn : l.Nodup) (h : l.Perm s) (hs : s.Pairwise (· ≤ ·)) :
    F l = signPow (invCount l) • F s := by
  have h1 := hF.eq_smul antisymmFn_sign h.symm ((h.nodup_iff).1 hn) (by rw [invCount_eq_zero_of_sorted hs]; rfl)
  rw [h1, signPow_smul_smul]

/-- The parity of a rearrangement `b` of `a`. -/
def relSign {ι : Type} [DecidableEq ι] (a b : List ι) : Int := signPow (invCount (b.map fun v => a.idxOf v))

theorem relSign_self {ι : Type} [DecidableEq ι] {a : List ι} (hn : a.Nodup) : relSign a a = 1 := by
  have : (a.map fun v => a.idxOf v).Pairwise (· ≤ ·) := by
    rw [List.pairwise_map, List.pairwise_iff_getElem]
    intro i j hi hj hij
    rw [hn.idxOf_getElem i hi, hn.idxOf_getElem j hj]
    exact hij.le
  rw [relSign, invCount_eq_zero_of_sorted this]; rfl

/-- `relSign a`, cut off to rearrangements of `a`, is antisymmetric. -/
theorem antisymmFn_relSign {ι : Type} [DecidableEq ι] (a : List ι) :
    AntisymmFn fun b : List ι => if b.Perm a then relSign a b else 0 := by
  intro pre post x y hn
  have hp : (pre ++ y :: x :: post).Perm a ↔ (pre ++ x :: y :: post).Perm a := by
    have : (pre ++ y :: x :: post).Perm (pre ++ x :: y :: post) := (List.Perm.swap x y post).append_left pre
    exact ⟨fun h => this.symm.trans h, fun h => this.trans h⟩
  by_cases h : (pre ++ x :: y :: post).Perm a
  · beta_reduce
    rw [if_pos h, if_pos (hp.2 h)]
    simp only [relSign, List.map_append, List.map_cons]
    apply signInv_swap
    intro hxy
    have hx : x ∈ a := h.subset (by simp)
    have := (List.idxOf_inj hx).1 hxy
    rw [List.nodup_append] at hn
    have := hn.2.1
    simp_all
  · beta_reduce
    rw [if_neg h, if_neg (fun h' => h (hp.1 h'))]; rfl

/-- Every antisymmetric function on rearrangements picks up the relative parity. -/
theorem AntisymmFn.relSign {ι M : Type} [AddCommGroup M] [DecidableEq ι] {F : List ι → M} (hF : AntisymmFn F)
    {a b : List ι} (hn : a.Nodup) (h : a.Perm b) : F a = relSign a b • F b := by
  have h1 := hF.eq_smul (antisymmFn_relSign a) h hn (by simp [relSign_self hn])
  simpa [h.symm] using h1

theorem relSign_mul {ι : Type} [DecidableEq ι] {a b c : List ι} (hn : a.Nodup) (h : a.Perm b) (h' : b.Perm c) :
    Dsrg.relSign a c = Dsrg.relSign a b * Dsrg.relSign b c := by
  have h1 := (antisymmFn_relSign a).relSign ((h.nodup_iff).1 hn) h'
  simp only [h.symm, (h.trans h').symm, if_true, smul_eq_mul] at h1
  have h2 : Dsrg.relSign b c * Dsrg.relSign b c = 1 := signPow_sq _
  rw [h1, mul_right_comm, h2, one_mul]

theorem relSign_sq {ι : Type} [DecidableEq ι] (a b : List ι) : relSign a b * relSign a b = 1 := signPow_sq _

theorem relSign_comm {ι : Type} [DecidableEq ι] {a b : List ι} (hn : a.Nodup) (h : a.Perm b) :
    Dsrg.relSign a b = Dsrg.relSign b a := by
  have h1 := relSign_mul hn h h.symm
  rw [relSign_self hn] at h1
  have h2 := relSign_sq a b
  calc Dsrg.relSign a b = Dsrg.relSign a b * (Dsrg.relSign a b * Dsrg.relSign b a) := by rw [← h1, mul_one]
    _ = Dsrg.relSign b a := by rw [← mul_assoc, h2, one_mul]

/-- `invCount` counts the pairs of positions in the wrong order. -/
theorem invCount_eq_numInversions {α : Type} [LinearOrder α] (l : List α) : invCount l = numInversions l := by
  have key : ∀ l : List α, numInversions l =
      ∑ i : Fin l.length, ∑ j : Fin l.length, if i < j ∧ l.get j < l.get i then 1 else 0 := by
    intro l
    rw [numInversions, Finset.card_filter, Fintype.sum_prod_type]
  induction l with
  | nil => rfl
  | cons x xs ih =>
    have hc : ∀ (ys : List α), (∑ j : Fin ys.length, if ys.get j < x then 1 else 0) =
        ys.countP (fun y => decide (y < x)) := by
      intro ys
      induction ys with
      | nil => rfl
      | cons y ys ih =>
        rw [List.countP_cons, ← ih]
        simp only [List.length_cons]
        rw [Fin.sum_univ_succ]
        simp only [List.get_eq_getElem, Fin.val_zero, List.getElem_cons_zero, Fin.val_succ, List.getElem_cons_succ,
          decide_eq_true_eq]
        rw [add_comm]
        by_cases h : y < x <;> simp [h]
    rw [key] at ih
    rw [key, invCount, ih, ← hc]
    simp only [List.length_cons]
    rw [Fin.sum_univ_succ, Fin.sum_univ_succ]
    simp only [Fin.sum_univ_succ]
    simp

end Dsrg
