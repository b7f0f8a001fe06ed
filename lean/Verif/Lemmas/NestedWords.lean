import Verif.Model.Bch
import Verif.Props.Misc
import Verif.Spec.NestedValue
import Mathlib.LinearAlgebra.FreeAlgebra

/-!
The products that SymPy finds in a nested commutator.
-/

namespace Dsrg

/-- A product of symbols. -/
noncomputable def wordProd (w : List OpName) : FreeAlgebra ℤ OpName := (w.map (FreeAlgebra.ι ℤ)).prod

theorem wordProd_append (v w : List OpName) : wordProd (v ++ w) = wordProd v * wordProd w := by
  unfold wordProd; rw [List.map_append, List.prod_append]

theorem basis_word (w : List OpName) : FreeAlgebra.basisFreeMonoid ℤ OpName (FreeMonoid.ofList w) = wordProd w := by
  unfold FreeAlgebra.basisFreeMonoid
  rw [Module.Basis.map_apply, LinearEquiv.symm_apply_eq]
  have : FreeAlgebra.equivMonoidAlgebraFreeMonoid (R := ℤ) (wordProd w) = MonoidAlgebra.single (FreeMonoid.ofList w) 1 := by
    unfold wordProd
    induction w with
    | nil => simp [MonoidAlgebra.one_def]
    | cons a w ih =>
      rw [List.map_cons, List.prod_cons, map_mul, ih]
      simp [FreeAlgebra.equivMonoidAlgebraFreeMonoid, MonoidAlgebra.single_mul_single]
  simp [this]

/-- The sum of a list of products with coefficients. -/
noncomputable def wordSum (e : List (ℤ × List OpName)) : FreeAlgebra ℤ OpName := (e.map fun p => p.1 • wordProd p.2).sum

/-- Two lists with the same sum give the same sum for every function of the products. -/
theorem wordSum_functional {M : Type} [AddCommGroup M] {e e' : List (ℤ × List OpName)} (h : wordSum e = wordSum e') (F : List OpName → M) :
    (e.map fun p => p.1 • F p.2).sum = (e'.map fun p => p.1 • F p.2).sum := by
  have key : ∀ e : List (ℤ × List OpName), (FreeAlgebra.basisFreeMonoid ℤ OpName).constr ℤ (fun w => F (FreeMonoid.toList w)) (wordSum e) =
      (e.map fun p => p.1 • F p.2).sum := by
    intro e
    unfold wordSum
    rw [map_list_sum, List.map_map]
    congr 1
    refine List.map_congr_left fun p _ => ?_
    simp only [Function.comp_apply, map_zsmul]
    rw [← basis_word, Module.Basis.constr_basis]
    rfl
  rw [← key, ← key, h]

/-- The products SymPy finds are among those of any other expansion. -/
theorem mem_words_of_sum {e e' : List (ℤ × List OpName)} (h : wordSum e = wordSum e') (hn : (e.map Prod.snd).Nodup) (hc : ∀ p ∈ e, p.1 ≠ 0)
    {p : ℤ × List OpName} (hp : p ∈ e) : p.2 ∈ e'.map Prod.snd := by
  by_contra hno
  have := wordSum_functional h (fun w => if w = p.2 then (1 : ℤ) else 0)
  have hr : (e'.map fun q => q.1 • (if q.2 = p.2 then (1 : ℤ) else 0)).sum = 0 := by
    refine List.sum_eq_zero fun x hx => ?_
    obtain ⟨q, hq, rfl⟩ := List.mem_map.1 hx
    rw [if_neg, smul_zero]
    rintro e
    exact hno (e ▸ List.mem_map_of_mem hq)
  have hl : (e.map fun q => q.1 • (if q.2 = p.2 then (1 : ℤ) else 0)).sum = p.1 := by
    clear this h
    induction e with
    | nil => simp at hp
    | cons q e ih =>
      rw [List.map_cons, List.nodup_cons] at hn
      rw [List.map_cons, List.sum_cons]
      rcases List.mem_cons.1 hp with rfl | hp
      · rw [if_pos rfl, List.sum_eq_zero, add_zero, smul_eq_mul, mul_one]
        intro x hx
        obtain ⟨q, hq, rfl⟩ := List.mem_map.1 hx
        rw [if_neg, smul_zero]
        intro e
        exact hn.1 (e ▸ List.mem_map_of_mem hq)
      · rw [ih hn.2 (fun p hp => hc p (by simp [hp])) hp, if_neg, smul_zero, zero_add]
        intro e
        exact hn.1 (e ▸ List.mem_map_of_mem hp)
  rw [hl, hr] at this
  exact hc p hp this

theorem wordSum_append (a b : List (ℤ × List OpName)) : wordSum (a ++ b) = wordSum a + wordSum b := by
  unfold wordSum; rw [List.map_append, List.sum_append]

theorem wordSum_flatMap {β : Type} (l : List β) (f : β → List (ℤ × List OpName)) : wordSum (l.flatMap f) = (l.map fun b => wordSum (f b)).sum := by
  induction l with
  | nil => rfl
  | cons b l ih => rw [List.flatMap_cons, wordSum_append, ih, List.map_cons, List.sum_cons]

theorem symbolicAmplitude_eq (levels : List Nat) (unitary : Bool) :
    symbolicAmplitude levels unitary = ((ampSymbols levels unitary).map fun a => a.1 • FreeAlgebra.ι ℤ a.2).sum := by
  unfold symbolicAmplitude ampSymbols
  rw [List.map_append, List.sum_append, sub_eq_add_neg, List.map_map]
  congr 1
  · congr 1
    refine List.map_congr_left fun k _ => ?_
    simp
  · cases unitary
    · simp
    · rw [if_pos rfl, if_pos rfl, List.map_map]
      induction levels with
      | nil => simp
      | cons k l ih => simp only [List.map_cons, List.sum_cons, neg_add, ih]; simp

theorem nestedWords_step (hs : List OpName) (amps : List (ℤ × OpName)) (n : Nat) :
    wordSum (nestedWords hs amps (n + 1)) = wordSum (nestedWords hs amps n) * (amps.map fun a => a.1 • FreeAlgebra.ι ℤ a.2).sum -
      (amps.map fun a => a.1 • FreeAlgebra.ι ℤ a.2).sum * wordSum (nestedWords hs amps n) := by
  show wordSum ((nestedWords hs amps n).flatMap _) = _
  rw [wordSum_flatMap]
  generalize nestedWords hs amps n = e
  have inner : ∀ p : ℤ × List OpName, wordSum (amps.flatMap fun a => [(p.1 * a.1, p.2 ++ [a.2]), (-(p.1 * a.1), a.2 :: p.2)]) =
      (p.1 • wordProd p.2) * (amps.map fun a => a.1 • FreeAlgebra.ι ℤ a.2).sum - (amps.map fun a => a.1 • FreeAlgebra.ι ℤ a.2).sum * (p.1 • wordProd p.2) := by
    intro p
    rw [wordSum_flatMap]
    induction amps with
    | nil => simp
    | cons a amps ih =>
      rw [List.map_cons, List.sum_cons, ih, List.map_cons, List.sum_cons, mul_add, add_mul]
      have : wordSum [(p.1 * a.1, p.2 ++ [a.2]), (-(p.1 * a.1), a.2 :: p.2)] =
          p.1 • wordProd p.2 * a.1 • FreeAlgebra.ι ℤ a.2 - a.1 • FreeAlgebra.ι ℤ a.2 * p.1 • wordProd p.2 := by
        unfold wordSum
        simp only [List.map_cons, List.map_nil, List.sum_cons, List.sum_nil, add_zero]
        rw [wordProd_append, show (a.2 :: p.2) = [a.2] ++ p.2 from rfl, wordProd_append]
        have : wordProd [a.2] = FreeAlgebra.ι ℤ a.2 := by simp [wordProd]
        rw [this, smul_mul_smul_comm, smul_mul_smul_comm, neg_smul, ← sub_eq_add_neg, mul_comm a.1]
      rw [this]
      abel
  induction e with
  | nil => simp [wordSum]
  | cons p e ih =>
    rw [List.map_cons, List.sum_cons, ih, inner]
    have : wordSum (p :: e) = p.1 • wordProd p.2 + wordSum e := by simp [wordSum]
    rw [this, add_mul, mul_add]
    abel

/-- SymPy's nested commutator is the one written out. -/
theorem symbolicCommutator_eq {level : Nat} (hl : 1 ≤ level) (levels : List Nat) (unitary : Bool) :
    symbolicCommutator level levels unitary = wordSum (nestedWords [OpName.H 1, OpName.H 2] (ampSymbols levels unitary) level) := by
  unfold symbolicCommutator
  rw [C56_nested_partial _ _ _ level hl, symbolicAmplitude_eq]
  clear hl
  induction level with
  | zero => simp [nestedWords, wordSum, wordProd]
  | succ n ih => rw [Function.iterate_succ_apply', ih, nestedWords_step]

/-- A level of 0 is treated as a level of 1. -/
theorem symbolicCommutator_zero (levels : List Nat) (unitary : Bool) :
    symbolicCommutator 0 levels unitary = wordSum (nestedWords [OpName.H 1, OpName.H 2] (ampSymbols levels unitary) 1) := by
  rw [← symbolicCommutator_eq (le_refl 1)]
  unfold symbolicCommutator
  rw [C56_violation_zero, C56_nested_partial _ _ _ 1 (le_refl 1)]
  rfl

theorem IsExpansion.wordSum {e : List (ℤ × List OpName)} {level : Nat} {levels : List Nat} {unitary : Bool}
    (h : IsExpansion e (symbolicCommutator level levels unitary)) :
    wordSum e = Dsrg.wordSum (nestedWords [OpName.H 1, OpName.H 2] (ampSymbols levels unitary) (max 1 level)) := by
  have : Dsrg.wordSum e = symbolicCommutator level levels unitary := h.sum
  rw [this]
  rcases Nat.eq_zero_or_pos level with rfl | hl
  · exact symbolicCommutator_zero levels unitary
  · rw [max_eq_right hl, symbolicCommutator_eq hl]

def OpName.isH : OpName → Bool
  | .H _ => true
  | _ => false

def OpName.bodies : OpName → Nat
  | .H k | .T k | .X k => k

/-- The symbols of a product of the nested commutator. -/
theorem nestedWords_mem {levels : List Nat} {unitary : Bool} : ∀ {n : Nat} {w : List OpName},
    w ∈ (nestedWords [OpName.H 1, OpName.H 2] (ampSymbols levels unitary) n).map Prod.snd →
    w.countP OpName.isH = 1 ∧ w.length = n + 1 ∧ ∀ x ∈ w, (x.isH = true → x = .H 1 ∨ x = .H 2) ∧ (x.isH = false → x.bodies ∈ levels) := by
  intro n
  induction n with
  | zero =>
    intro w hw
    simp only [nestedWords, List.map_cons, List.map_nil, List.mem_cons, List.not_mem_nil, or_false] at hw
    rcases hw with rfl | rfl <;> simp [OpName.isH]
  | succ n ih =>
    intro w hw
    obtain ⟨q, hq, rfl⟩ := List.mem_map.1 hw
    obtain ⟨p, hp, hq⟩ := List.mem_flatMap.1 hq
    obtain ⟨a, ha, hq⟩ := List.mem_flatMap.1 hq
    obtain ⟨h1, h2, h3⟩ := ih (List.mem_map_of_mem hp)
    have haa : a.2.isH = false ∧ a.2.bodies ∈ levels := by
      unfold ampSymbols at ha
      rcases List.mem_append.1 ha with ha | ha
      · obtain ⟨k, hk, rfl⟩ := List.mem_map.1 ha
        exact ⟨rfl, hk⟩
      · split at ha
        · obtain ⟨k, hk, rfl⟩ := List.mem_map.1 ha
          exact ⟨rfl, hk⟩
        · simp at ha
    have hx : ∀ x, x = a.2 → (x.isH = true → x = .H 1 ∨ x = .H 2) ∧ (x.isH = false → x.bodies ∈ levels) := by
      rintro x rfl
      exact ⟨fun h => (by rw [haa.1] at h; exact absurd h (by simp)), fun _ => haa.2⟩
    simp only [List.mem_cons, List.not_mem_nil, or_false] at hq
    rcases hq with rfl | rfl
    · refine ⟨by simp [h1, haa.1], by simp [h2], ?_⟩
      intro x hxm
      rcases List.mem_append.1 hxm with hxm | hxm
      · exact h3 x hxm
      · exact hx x (by simpa using hxm)
    · refine ⟨by simp [h1, haa.1], by simp [h2], ?_⟩
      intro x hxm
      rcases List.mem_cons.1 hxm with hxm | hxm
      · exact hx x hxm
      · exact h3 x hxm

end Dsrg
