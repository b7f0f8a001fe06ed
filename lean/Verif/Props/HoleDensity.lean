import Verif.Model.ExpandHole
import Verif.Spec.Semantics
import Verif.Lemmas.Itertools
import Verif.Lemmas.Sign
import Mathlib.Tactic.Ring

/-!
Property C19: expanding hole densities.
-/

namespace Dsrg

/-- Signed value of a list of deltas and cumulants. -/
theorem sum_pyProduct_signed {R : Type} [CommRing R] (f : Tensor → R) (sgn : Tensor → Bool) (pools : List (List Tensor)) :
    ((pyProduct pools).map fun ts => ((signPow (ts.countP sgn) : Int) : R) * (ts.map f).prod).sum =
      (pools.map fun p => (p.map fun t => (if sgn t then -1 else 1) * f t).sum).prod := by
  induction pools with
  | nil => simp [pyProduct, signPow]
  | cons p pools ih =>
    rw [List.map_cons, List.prod_cons, ← ih]
    simp only [pyProduct]
    induction p with
    | nil => simp
    | cons t p ihp =>
      rw [List.flatMap_cons, List.map_append, List.sum_append, ihp, List.map_cons, List.sum_cons, add_mul]
      congr 1
      rw [List.map_map, ← List.sum_map_mul_left]
      congr 1
      apply List.map_congr_left
      intro ts _
      simp only [Function.comp, List.countP_cons, List.map_cons, List.prod_cons]
      by_cases h : sgn t = true
      · simp only [h, if_true, signPow_succ]
        push_cast
        ring
      · simp only [h, Bool.false_eq_true, if_false, Nat.add_zero]
        ring

/-- The signed products add up to the product of the original tensors, for every physical interpretation and every
assignment of orbitals that respects the label spaces. -/
theorem C19_expand_hole_densities {O R M : Type} [DecidableEq O] [CommRing R] (orb : Orbitals O) (I : Interp O R M)
    (hI : I.Physical orb) (ts : List Tensor)
    (hts : ∀ t ∈ ts, t.cls = .hole → Tensor.make .hole t.upper t.lower t.name t.priority = .ok t)
    (σ : Index → O) (hσ : ∀ t ∈ ts, ∀ i ∈ t.pair.indices, orb.In i.space (σ i)) :
    ((expandHoleDensities ts).map fun r => (r.1 : R) * I.pval σ r.2).sum = I.pval σ ts := by
  have hexp : ∀ t ∈ ts, t.cls = .hole →
      (t.expandHole.map fun t' => (if decide (t'.cls = .cumulant) then -1 else 1) * I.tval σ t').sum = I.tval σ t := by
    intro t ht hc
    have hmake := hts t ht hc
    have hone : t.upper.size = 1 ∧ t.lower.size = 1 := by
      unfold Tensor.make at hmake
      by_contra hcon
      by_cases hty : t.upper.ty = t.lower.ty
      · have hp : IndicesPair.make t.upper t.lower = .ok ⟨t.upper, t.lower⟩ := by simp [IndicesPair.make, hty]
        have ho : requireOneBody ⟨t.upper, t.lower⟩ = .error .valueError := if_neg hcon
        simp [hp, bind, Except.bind, ho] at hmake
      · have hp : IndicesPair.make t.upper t.lower = .error .typeError := by simp [IndicesPair.make, hty]
        simp [hp, bind, Except.bind] at hmake
    obtain ⟨u, hu⟩ := List.length_eq_one_iff.1 hone.1
    obtain ⟨l, hl⟩ := List.length_eq_one_iff.1 hone.2
    have hiu := hσ t ht u (by simp [IndicesPair.indices, hu])
    have hil := hσ t ht l (by simp [IndicesPair.indices, hl])
    have hval : I.tval σ t = (if σ u = σ l then 1 else 0) - I.tensor .cumulant ['L'] [σ u] [σ l] := by
      unfold Interp.tval
      rw [hc, hu, hl]
      exact hI.hole _ _ _
    have hk : I.tval σ ⟨.kronecker, ['K'], -1, t.pair⟩ = if σ u = σ l then 1 else 0 := by
      unfold Interp.tval
      show I.tensor .kronecker ['K'] (t.upper.list.map σ) (t.lower.list.map σ) = _
      rw [hu, hl]; exact hI.kron _ _ _
    have hcum : I.tval σ ⟨.cumulant, ['L'], 2, t.pair⟩ = I.tensor .cumulant ['L'] [σ u] [σ l] := by
      unfold Interp.tval
      show I.tensor .cumulant ['L'] (t.upper.list.map σ) (t.lower.list.map σ) = _
      rw [hu, hl]; rfl
    rw [hval]
    unfold Tensor.expandHole
    rw [hu, hl]
    simp only [List.head?_cons, Option.map_some, Option.some.injEq]
    split
    · rename_i hv
      have hvirt : orb.elem (σ u) = .virt ∨ orb.elem (σ l) = .virt := by
        have hd : ∀ e : Elem, Kind.Denotes .v e → e = .virt := by decide
        rcases hv with hv | hv
        · left; have := hiu.1; rw [hv] at this; exact hd _ this
        · right; have := hil.1; rw [hv] at this; exact hd _ this
      rw [hI.dens _ _ _ hvirt]
      simp [hk]
    · simp [hk, hcum, sub_eq_add_neg]
  have hsplit : I.pval σ ts = I.pval σ (ts.filter fun t => decide (t.cls ≠ .hole)) *
      I.pval σ (ts.filter fun t => decide (t.cls = .hole)) := by
    clear hexp hts hσ
    unfold Interp.pval
    induction ts with
    | nil => simp
    | cons t ts ih =>
      by_cases h : t.cls = .hole
      · simp [h]
        simp at ih
        rw [ih]; ring
      · simp [h]
        simp at ih
        rw [ih]; ring
  unfold expandHoleDensities
  simp only
  split
  · simp [Interp.pval]
  · rw [hsplit, List.map_map]
    have : ((fun r : Int × List Tensor => (r.1 : R) * I.pval σ r.2) ∘ fun expanded : List Tensor =>
        (signPow (expanded.countP fun t => decide (t.cls = .cumulant)), (splitHoles ts).1 ++ expanded)) =
        fun expanded => I.pval σ (splitHoles ts).1 *
          (((signPow (expanded.countP fun t => decide (t.cls = .cumulant)) : Int) : R) * (expanded.map (I.tval σ)).prod) := by
      funext expanded
      simp only [Function.comp, Interp.pval, List.map_append, List.prod_append]
      ring
    rw [this, List.sum_map_mul_left, sum_pyProduct_signed]
    congr 1
    simp only [splitHoles, List.map_map, Interp.pval]
    congr 1
    apply List.map_congr_left
    intro t ht
    rw [List.mem_filter] at ht
    exact hexp t ht.1 (by simpa using ht.2)

/-- A physical interpretation with a genuine (non-constant) active density: one core, two active and one virtual
orbital. -/
example : ∃ (orb : Orbitals (Fin 4)) (I : Interp (Fin 4) ℤ Unit), I.Physical orb ∧
    I.tensor .cumulant ['L'] [1] [2] = 7 ∧ I.tensor .hole ['C'] [1] [2] = -7 := by
  let orb : Orbitals (Fin 4) := ⟨![.core, .active, .active, .virt], fun _ => false⟩
  let γ : Fin 4 → Fin 4 → ℤ := fun a b =>
    if orb.elem a = .active ∧ orb.elem b = .active then 7 else if a = b ∧ orb.elem a = .core then 1 else 0
  let T : TCls → PyStr → List (Fin 4) → List (Fin 4) → ℤ := fun c _ u l =>
    match c, u, l with
    | .kronecker, [a], [b] => if a = b then 1 else 0
    | .cumulant, [a], [b] => γ a b
    | .hole, [a], [b] => (if a = b then 1 else 0) - γ a b
    | _, _, _ => 1
  refine ⟨orb, ⟨T, fun _ _ => ()⟩, ⟨?_, ?_, ?_, ?_, ?_⟩, ?_, ?_⟩
  · intro _ a b; rfl
  · intro _ a b; show _ → γ a b = 0; revert a b; decide
  · intro _ a b; show _ → γ a b = _; revert a b; decide
  · intro _ a b h; exact absurd rfl h
  · intro _ a b; rfl
  · decide
  · decide

end Dsrg
