import Verif.Props.Sympy

/-!
A function that meets the contract of SymPy's `canonicalize` and can be evaluated on products without antisymmetric slots, for examples.
-/

namespace Dsrg

/-- No generator touches the sign. -/
def SlotGroup.keepsSign (e : SlotGroup) : Bool := e.gens.all fun p => decide (p.length = e.size + 2) && decide (p.drop e.size = [e.size, e.size + 1])

/-- Returns its input when it can be seen at once that the product does not vanish. -/
noncomputable def plainCanon (g : List Nat) (dummies : List (Nat × Nat)) (v : List SlotGroup) : Option (List Nat) :=
  if v.all SlotGroup.keepsSign && decide ((g.drop (g.length - 2)).reverse ≠ g.drop (g.length - 2)) then some g else lazyCanon g dummies v

theorem drop_append_two (g : List Nat) (s s' : Nat) : (g ++ [s, s']).drop ((g ++ [s, s']).length - 2) = [s, s'] := by
  rw [show (g ++ [s, s']).length - 2 = g.length by simp, List.drop_left]

theorem keepsSign_permute {e : SlotGroup} (he : e.keepsSign = true) {p : List Nat} (hp : p ∈ e.gens) {b b' : List Nat} {s s' r r' : Nat}
    (hb : b.length = e.size) (h : permuteSlots p (b ++ [s, s']) = b' ++ [r, r']) : r = s ∧ r' = s' := by
  have h1 := List.all_eq_true.1 he p hp
  simp only [Bool.and_eq_true, decide_eq_true_eq] at h1
  obtain ⟨h2, h3⟩ := h1
  unfold permuteSlots at h
  have hl := congrArg List.length h
  rw [List.length_map, h2] at hl
  simp only [List.length_append, List.length_cons, List.length_nil] at hl
  have h4 := congrArg (List.drop e.size) h
  rw [← List.map_drop, h3] at h4
  rw [show e.size = b'.length by omega, List.drop_left, ← show e.size = b'.length by omega, ← hb] at h4
  simp at h4
  exact ⟨h4.1.symm, h4.2.symm⟩

theorem symStep_sign {dummies : List (Nat × Nat)} {v : List SlotGroup} (hv : v.all SlotGroup.keepsSign = true) {x y : List Nat} (h : SymStep dummies v x y) :
    y.drop (y.length - 2) = x.drop (x.length - 2) := by
  cases h with
  | slots e k p before b b' after s s' r r' h1 h2 h3 h4 =>
    obtain ⟨v₁, v₂, rfl, -, -⟩ := h1
    have he : e.keepsSign = true := List.all_eq_true.1 hv e (by simp)
    obtain ⟨rfl, rfl⟩ := keepsSign_permute he h2 h3 h4
    rw [drop_append_two, drop_append_two]
  | exchange e k before b b' after s s' => rw [drop_append_two, drop_append_two]
  | ends d i g s s' => rw [drop_append_two, drop_append_two]
  | rename d i j g s s' => rw [drop_append_two, drop_append_two]

theorem plainCanon_contract : CanonContract plainCanon where
  reach g dummies v gc h := by
    unfold plainCanon at h
    split_ifs at h
    · injection h with h; rw [h]
    · exact lazyCanon_contract.reach g dummies v gc h
  zero g dummies v := by
    unfold plainCanon
    split_ifs with hc
    · simp only [reduceCtorEq, false_iff]
      intro hr
      rw [Bool.and_eq_true] at hc
      have key : ∀ y, Relation.ReflTransGen (SymStep dummies v) g y → y.drop (y.length - 2) = g.drop (g.length - 2) := by
        intro y hy
        induction hy with
        | refl => rfl
        | tail _ hs ih => rw [symStep_sign hc.1 hs, ih]
      have := key _ hr
      unfold flipSign at this
      have hlen : (g.take (g.length - 2) ++ (g.drop (g.length - 2)).reverse).length = g.length := by
        rw [List.length_append, List.length_reverse, ← List.length_append, List.take_append_drop]
      rw [hlen] at this
      rw [List.drop_left' (by simp)] at this
      exact of_decide_eq_true hc.2 this
    · exact lazyCanon_contract.zero g dummies v

end Dsrg
