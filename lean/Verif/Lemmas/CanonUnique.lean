import Verif.Spec.CanonicalForm
import Verif.Lemmas.PlainCanon
import Verif.Lemmas.SlotMoves
import Mathlib.Data.List.GetD

/-!
There is a function that meets the whole contract of SymPy's `canonicalize`.
-/

namespace Dsrg

abbrev Reach (dummies : List (Nat × Nat)) (v : List SlotGroup) : List Nat → List Nat → Prop := Relation.ReflTransGen (SymStep dummies v)

theorem flipSign_append (g : List Nat) (s s' : Nat) : flipSign (g ++ [s, s']) = g ++ [s', s] := by
  unfold flipSign
  have : (g ++ [s, s']).length - 2 = g.length := by simp
  rw [this]; simp

theorem flipSign_flipSign (g : List Nat) : flipSign (flipSign g) = g := by
  unfold flipSign
  have h : (g.take (g.length - 2) ++ (g.drop (g.length - 2)).reverse).length - 2 = g.length - 2 := by
    simp
  rw [h]
  have h1 : (g.take (g.length - 2)).length = g.length - 2 := by simp
  rw [List.take_left' h1, List.drop_left' h1, List.reverse_reverse, List.take_append_drop]

theorem proper_permute {e : SlotGroup} (he : e.Proper) {p : List Nat} (hp : p ∈ e.gens) {b b' : List Nat} {s s' r r' : Nat} (hb : b.length = e.size)
    (h : permuteSlots p (b ++ [s, s']) = b' ++ [r, r']) :
    b'.length = e.size ∧ permuteSlots p (b' ++ [r, r']) = b ++ [s, s'] ∧ permuteSlots p (b ++ [s', s]) = b' ++ [r', r] := by
  obtain ⟨q, hpq, hq, hlt, hinv⟩ := he p hp
  have hmap : ∀ (b : List Nat) (s s' : Nat), b.length = e.size → (q.map fun k => (b ++ [s, s']).getD k 0) = q.map fun k => b.getD k 0 := by
    intro b s s' hb
    refine List.map_congr_left fun k hk => ?_
    rw [List.getD_append _ _ _ _ (by rw [hb]; exact hlt k hk)]
  have hs0 : ∀ (b : List Nat) (s s' : Nat), b.length = e.size → (b ++ [s, s']).getD e.size 0 = s := by
    intro b s s' hb; rw [List.getD_append_right _ _ _ _ (by omega)]; simp [hb]
  have hs1 : ∀ (b : List Nat) (s s' : Nat), b.length = e.size → (b ++ [s, s']).getD (e.size + 1) 0 = s' := by
    intro b s s' hb; rw [List.getD_append_right _ _ _ _ (by omega)]; simp [hb]
  have hinv' : ∀ b : List Nat, b.length = e.size → (q.map fun k => (q.map fun k => b.getD k 0).getD k 0) = b := by
    intro b hb
    refine List.ext_getElem (by simp [hq, hb]) fun k h1 h2 => ?_
    rw [List.getElem_map]
    have hk : k < e.size := by omega
    have hkq : k < q.length := by omega
    have e1 : q.getD k 0 = q[k] := List.getD_eq_getElem _ _ hkq
    have hqk : q[k] < e.size := hlt _ (List.getElem_mem _)
    have h3 := hinv k hk
    rw [e1] at h3
    rw [List.getD_eq_getElem _ _ (by simp; omega), List.getElem_map]
    rw [List.getD_eq_getElem _ _ (by omega : q[k] < q.length)] at h3
    rw [h3, List.getD_eq_getElem]
  rcases hpq with rfl | rfl
  · have key : ∀ (b : List Nat) (s s' : Nat), b.length = e.size →
        permuteSlots (q ++ [e.size, e.size + 1]) (b ++ [s, s']) = (q.map fun k => b.getD k 0) ++ [s, s'] := by
      intro b s s' hb
      unfold permuteSlots
      rw [List.map_append, hmap b s s' hb]
      simp only [List.map_cons, List.map_nil, hs0 b s s' hb, hs1 b s s' hb]
    rw [key b s s' hb] at h
    obtain ⟨rfl, rfl, rfl⟩ := append_two_inj h
    refine ⟨by simp [hq], ?_, key b s' s hb⟩
    rw [key _ _ _ (by simp [hq]), hinv' b hb]
  · have key : ∀ (b : List Nat) (s s' : Nat), b.length = e.size →
        permuteSlots (q ++ [e.size + 1, e.size]) (b ++ [s, s']) = (q.map fun k => b.getD k 0) ++ [s', s] := by
      intro b s s' hb
      unfold permuteSlots
      rw [List.map_append, hmap b s s' hb]
      simp only [List.map_cons, List.map_nil, hs0 b s s' hb, hs1 b s s' hb]
    rw [key b s s' hb] at h
    obtain ⟨rfl, rfl, rfl⟩ := append_two_inj h
    refine ⟨by simp [hq], ?_, key b s' s hb⟩
    rw [key _ _ _ (by simp [hq]), hinv' b hb]

theorem SlotGroup.At.mem {v : List SlotGroup} {e : SlotGroup} {k off : Nat} (h : e.At v k off) : e ∈ v := by
  obtain ⟨v₁, v₂, rfl, -, -⟩ := h; simp

theorem symStep_symm {dummies : List (Nat × Nat)} {v : List SlotGroup} (hv : ∀ e ∈ v, e.Proper) {x y : List Nat} (h : SymStep dummies v x y) :
    SymStep dummies v y x := by
  cases h with
  | slots e k p before b b' after s s' r r' hat hp hb h =>
    obtain ⟨h1, h2, -⟩ := proper_permute (hv e hat.mem) hp hb h
    exact .slots e k p before b' b after r r' s s' hat hp h1 h2
  | exchange e k before b b' after s s' hat hk hb hb' => exact .exchange e k before b' b after s s' hat hk hb' hb
  | ends d i g s s' hd h1 h2 =>
    have := SymStep.ends (v := v) d i (g.map (Equiv.swap (2 * i) (2 * i + 1))) s s' hd h1 h2
    rw [List.map_map] at this
    have e : (Equiv.swap (2 * i) (2 * i + 1)) ∘ (Equiv.swap (2 * i) (2 * i + 1)) = (id : Nat → Nat) := by funext n; simp
    rwa [e, List.map_id] at this
  | rename d i j g s s' hd h1 h2 h3 h4 =>
    have := SymStep.rename (v := v) d i j (g.map fun n => Equiv.swap (2 * i) (2 * j) (Equiv.swap (2 * i + 1) (2 * j + 1) n)) s s' hd h1 h2 h3 h4
    rw [List.map_map] at this
    have e : ((fun n => Equiv.swap (2 * i) (2 * j) (Equiv.swap (2 * i + 1) (2 * j + 1) n)) ∘
        fun n => Equiv.swap (2 * i) (2 * j) (Equiv.swap (2 * i + 1) (2 * j + 1) n)) = (id : Nat → Nat) := by
      funext n
      have hc : ∀ m, Equiv.swap (2 * i + 1) (2 * j + 1) (Equiv.swap (2 * i) (2 * j) m) = Equiv.swap (2 * i) (2 * j) (Equiv.swap (2 * i + 1) (2 * j + 1) m) := by
        intro m
        simp only [Equiv.swap_apply_def]
        split_ifs <;> omega
      simp only [Function.comp, hc]; simp
    rwa [e, List.map_id] at this

theorem symStep_flip {dummies : List (Nat × Nat)} {v : List SlotGroup} (hv : ∀ e ∈ v, e.Proper) {x y : List Nat} (h : SymStep dummies v x y) :
    SymStep dummies v (flipSign x) (flipSign y) := by
  cases h with
  | slots e k p before b b' after s s' r r' hat hp hb h =>
    obtain ⟨-, -, h3⟩ := proper_permute (hv e hat.mem) hp hb h
    rw [flipSign_append, flipSign_append]
    exact .slots e k p before b b' after s' s r' r hat hp hb h3
  | exchange e k before b b' after s s' hat hk hb hb' =>
    rw [flipSign_append, flipSign_append]; exact .exchange e k before b b' after s' s hat hk hb hb'
  | ends d i g s s' hd h1 h2 => rw [flipSign_append, flipSign_append]; exact .ends d i g s' s hd h1 h2
  | rename d i j g s s' hd h1 h2 h3 h4 => rw [flipSign_append, flipSign_append]; exact .rename d i j g s' s hd h1 h2 h3 h4

theorem reach_symm {dummies : List (Nat × Nat)} {v : List SlotGroup} (hv : ∀ e ∈ v, e.Proper) {x y : List Nat} (h : Reach dummies v x y) :
    Reach dummies v y x := by
  induction h with
  | refl => exact .refl
  | tail _ h ih => exact .head (symStep_symm hv h) ih

theorem reach_flip {dummies : List (Nat × Nat)} {v : List SlotGroup} (hv : ∀ e ∈ v, e.Proper) {x y : List Nat} (h : Reach dummies v x y) :
    Reach dummies v (flipSign x) (flipSign y) := by
  induction h with
  | refl => exact .refl
  | tail _ h ih => exact .tail ih (symStep_flip hv h)

theorem reach_flip_iff {dummies : List (Nat × Nat)} {v : List SlotGroup} (hv : ∀ e ∈ v, e.Proper) {x y : List Nat} :
    Reach dummies v (flipSign x) y ↔ Reach dummies v x (flipSign y) := by
  constructor
  · intro h; have := reach_flip hv h; rwa [flipSign_flipSign] at this
  · intro h; have := reach_flip hv h; rwa [flipSign_flipSign] at this

/-- Products that are equal up to symmetries and sign. -/
def signedReach {dummies : List (Nat × Nat)} {v : List SlotGroup} (hv : ∀ e ∈ v, e.Proper) : Setoid (List Nat) where
  r x y := Reach dummies v x y ∨ Reach dummies v x (flipSign y)
  iseqv := {
    refl := fun x => Or.inl .refl
    symm := by
      rintro x y (h | h)
      · exact Or.inl (reach_symm hv h)
      · exact Or.inr ((reach_flip_iff hv).1 (reach_symm hv h))
    trans := by
      rintro x y z (h | h) (h' | h')
      · exact Or.inl (h.trans h')
      · exact Or.inr (h.trans h')
      · exact Or.inr (h.trans (reach_flip hv h'))
      · left
        have := reach_flip hv h'
        rw [flipSign_flipSign] at this
        exact h.trans this }

/-- A choice of one product for every class. -/
noncomputable def classRep {dummies : List (Nat × Nat)} {v : List SlotGroup} (hv : ∀ e ∈ v, e.Proper) (g : List Nat) : List Nat :=
  (Quotient.mk (signedReach (dummies := dummies) hv) g).out

theorem classRep_spec {dummies : List (Nat × Nat)} {v : List SlotGroup} (hv : ∀ e ∈ v, e.Proper) (g : List Nat) :
    Reach dummies v g (classRep (dummies := dummies) hv g) ∨ Reach dummies v g (flipSign (classRep (dummies := dummies) hv g)) :=
  (signedReach (dummies := dummies) hv).symm (@Quotient.mk_out _ (signedReach (dummies := dummies) hv) g)

theorem classRep_eq {dummies : List (Nat × Nat)} {v : List SlotGroup} (hv : ∀ e ∈ v, e.Proper) {g g' : List Nat}
    (h : Reach dummies v g g' ∨ Reach dummies v g (flipSign g')) : classRep (dummies := dummies) hv g = classRep (dummies := dummies) hv g' := by
  unfold classRep
  rw [Quotient.sound (s := signedReach (dummies := dummies) hv) h]

open Classical in
/-- A canonical form by choice. -/
noncomputable def chosenCanon (g : List Nat) (dummies : List (Nat × Nat)) (v : List SlotGroup) : Option (List Nat) :=
  if Reach dummies v g (flipSign g) then none
  else if hv : ∀ e ∈ v, e.Proper then
    if Reach dummies v g (classRep (dummies := dummies) hv g) then some (classRep (dummies := dummies) hv g)
    else some (flipSign (classRep (dummies := dummies) hv g))
  else some g

theorem chosenCanon_contract : CanonContract chosenCanon where
  reach := by
    intro g dummies v gc h
    unfold chosenCanon at h
    split_ifs at h with h1 hv h2
    · cases h; exact h2
    · cases h; exact (classRep_spec hv g).resolve_left h2
    · cases h; exact .refl
  zero := by
    intro g dummies v
    unfold chosenCanon
    split_ifs with h1 hv h2 <;> simpa using h1

theorem chosenCanon_unique : CanonUnique chosenCanon where
  same := by
    intro g g' dummies v hv _ h
    have hz : Reach dummies v g' (flipSign g') ↔ Reach dummies v g (flipSign g) :=
      ⟨fun h' => (h.trans h').trans (reach_flip hv (reach_symm hv h)), fun h' => ((reach_symm hv h).trans h').trans (reach_flip hv h)⟩
    have hq := classRep_eq hv (Or.inl h)
    unfold chosenCanon
    by_cases h1 : Reach dummies v g (flipSign g)
    · rw [if_pos h1, if_pos (hz.2 h1)]
    · rw [if_neg h1, if_neg (fun h => h1 (hz.1 h)), dif_pos hv, dif_pos hv, hq]
      by_cases h2 : Reach dummies v g (classRep (dummies := dummies) hv g')
      · rw [if_pos h2, if_pos ((reach_symm hv h).trans h2)]
      · rw [if_neg h2, if_neg fun h3 => h2 (h.trans h3)]
  negative := by
    intro g dummies v hv _
    have hz : Reach dummies v (flipSign g) (flipSign (flipSign g)) ↔ Reach dummies v g (flipSign g) := by
      rw [reach_flip_iff hv, flipSign_flipSign]
    have hq := classRep_eq (dummies := dummies) (g := g) (g' := flipSign g) hv (Or.inr (by rw [flipSign_flipSign]))
    unfold chosenCanon
    by_cases h1 : Reach dummies v g (flipSign g)
    · rw [if_pos h1, if_pos (hz.2 h1)]; rfl
    · rw [if_neg h1, if_neg (fun h => h1 (hz.1 h)), dif_pos hv, dif_pos hv, ← hq]
      have hm := classRep_spec (dummies := dummies) hv g
      generalize classRep (dummies := dummies) hv g = r at hm ⊢
      by_cases h2 : Reach dummies v g r
      · rw [if_pos h2, if_neg]
        · rfl
        · intro h3
          exact h1 (h2.trans (reach_symm hv h3))
      · rw [if_neg h2, if_pos ((reach_flip_iff hv).2 (hm.resolve_left h2))]
        simp [flipSign_flipSign]

end Dsrg
