import Mathlib.Algebra.MonoidAlgebra.Basic
import Mathlib.Algebra.FreeMonoid.Basic
import Mathlib.LinearAlgebra.Finsupp.LinearCombination
import Verif.Lemmas.ConnectedCancel
import Verif.Spec.Transformation

/-!
The connected contractions of a nested commutator of sums of operator strings, written in the free algebra of the strings.
-/

namespace Dsrg

section
variable {α β L R M : Type} [CommRing R] [AddCommGroup M] [Module R M]

open Classical in
/-- The factor of a block: zero inside one string. -/
noncomputable def blockK (contr : List L → R) (key : α → ℕ) (letter : α → L) (b : List α) : R :=
  if ∃ x ∈ b, ∃ y ∈ b, key x ≠ key y then contr (b.map letter) else 0

theorem connB_relabel {key : α → ℕ} {key' : β → ℕ} {keys keys' : List ℕ} (g : α → β) (π : ℕ → ℕ) {B : List (List α)}
    (h1 : ∀ b ∈ B, ∀ x ∈ b, key' (g x) = π (key x) ∧ key x ∈ keys) (hinj : ∀ k ∈ keys, ∀ k' ∈ keys, π k = π k' → k = k')
    (hkeys : ∀ k', k' ∈ keys' ↔ ∃ k ∈ keys, π k = k') :
    ConnB key' keys' (B.map (List.map g)) ↔ ConnB key keys B := by
  constructor
  · intro h S hS hex k hk
    have hcl : ClosedUnder key' (B.map (List.map g)) {k' | ∃ k ∈ keys, k ∈ S ∧ π k = k'} := by
      intro b' hb' x' hx' y' hy' hxS
      obtain ⟨b, hb, rfl⟩ := List.mem_map.mp hb'
      obtain ⟨x, hx, rfl⟩ := List.mem_map.mp hx'
      obtain ⟨y, hy, rfl⟩ := List.mem_map.mp hy'
      obtain ⟨k, hk, hkS, e⟩ := hxS
      obtain ⟨ex, kx⟩ := h1 b hb x hx
      obtain ⟨ey, ky⟩ := h1 b hb y hy
      rw [ex] at e
      obtain rfl := hinj k hk _ kx e
      exact ⟨_, ky, hS b hb x hx y hy hkS, ey.symm⟩
    obtain ⟨k0, hk0, hk0S⟩ := hex
    obtain ⟨k', hk', hk'S, e⟩ := h _ hcl ⟨π k0, (hkeys _).mpr ⟨k0, hk0, rfl⟩, k0, hk0, hk0S, rfl⟩ (π k) ((hkeys _).mpr ⟨k, hk, rfl⟩)
    rw [← hinj k' hk' k hk e]
    exact hk'S
  · intro h S hS hex k' hk'
    have hcl : ClosedUnder key B {k | π k ∈ S} := by
      intro b hb x hx y hy hxS
      obtain ⟨ex, kx⟩ := h1 b hb x hx
      obtain ⟨ey, ky⟩ := h1 b hb y hy
      show π (key y) ∈ S
      rw [← ey]
      refine hS _ (List.mem_map_of_mem hb) _ (List.mem_map_of_mem hx) _ (List.mem_map_of_mem hy) ?_
      rw [ex]; exact hxS
    obtain ⟨k0', hk0', hk0S⟩ := hex
    obtain ⟨k0, hk0, rfl⟩ := (hkeys _).mp hk0'
    obtain ⟨k, hk, rfl⟩ := (hkeys _).mp hk'
    exact h _ hcl ⟨k0, hk0, hk0S⟩ k hk

theorem pairConnB_relabel {key : α → ℕ} {key' : β → ℕ} {keys keys' : List ℕ} (g : α → β) (π : ℕ → ℕ) {B : List (List α)}
    (h1 : ∀ b ∈ B, ∀ x ∈ b, key' (g x) = π (key x) ∧ key x ∈ keys) (hinj : ∀ k ∈ keys, ∀ k' ∈ keys, π k = π k' → k = k')
    (hkeys : ∀ k', k' ∈ keys' ↔ ∃ k ∈ keys, π k = k') :
    PairConnB key' keys' (B.map (List.map g)) ↔ PairConnB key keys B := by
  unfold PairConnB
  rw [connB_relabel g π h1 hinj hkeys]
  simp

/-- The sum over contractions does not depend on the names of the strings and operators. -/
theorem rowsSum_relabel (contr : List L → R) (nn : List L → M) {key : α → ℕ} {key' : β → ℕ} {letter : α → L} {letter' : β → L}
    (g : α → β) (π : ℕ → ℕ) {keys : List ℕ} {w : List α} {P : List (List α) → Prop} {P' : List (List β) → Prop}
    (h1 : ∀ x ∈ w, key' (g x) = π (key x) ∧ key x ∈ keys) (hinj : ∀ k ∈ keys, ∀ k' ∈ keys, π k = π k' → k = k')
    (hlet : ∀ x ∈ w, letter' (g x) = letter x)
    (hP : ∀ B : List (List α), (∀ b ∈ B, ∀ x ∈ b, x ∈ w) → (P' (B.map (List.map g)) ↔ P B)) :
    rowsSum (blockK contr key' letter') (fun r => nn (r.map letter')) P' (w.map g) =
      rowsSum (blockK contr key letter) (fun r => nn (r.map letter)) P w := by
  classical
  rw [rowsSum_map]
  refine rowsSum_congr fun c hc => ?_
  obtain ⟨k1, k2⟩ := rows_blocks (Nat.le_refl _) hc
  have hin : ∀ b ∈ c.2.1, ∀ x ∈ b, x ∈ w := fun b hb x hx => (k1 b hb).2.subset hx
  refine ⟨hP _ hin, fun b hb => ?_, ?_⟩
  · have hl : (b.map g).map letter' = b.map letter := by
      rw [List.map_map]
      exact List.map_congr_left fun x hx => hlet x (hin b hb x hx)
    have hk : (∃ x ∈ b.map g, ∃ y ∈ b.map g, key' x ≠ key' y) ↔ ∃ x ∈ b, ∃ y ∈ b, key x ≠ key y := by
      constructor
      · rintro ⟨x', hx', y', hy', hne⟩
        obtain ⟨x, hx, rfl⟩ := List.mem_map.mp hx'
        obtain ⟨y, hy, rfl⟩ := List.mem_map.mp hy'
        refine ⟨x, hx, y, hy, fun e => hne ?_⟩
        rw [(h1 x (hin b hb x hx)).1, (h1 y (hin b hb y hy)).1, e]
      · rintro ⟨x, hx, y, hy, hne⟩
        refine ⟨g x, List.mem_map_of_mem hx, g y, List.mem_map_of_mem hy, fun e => hne ?_⟩
        rw [(h1 x (hin b hb x hx)).1, (h1 y (hin b hb y hy)).1] at e
        exact hinj _ (h1 x (hin b hb x hx)).2 _ (h1 y (hin b hb y hy)).2 e
    unfold blockK
    rw [hl]
    by_cases hh : ∃ x ∈ b, ∃ y ∈ b, key x ≠ key y
    · rw [if_pos hh, if_pos (hk.mpr hh)]
    · rw [if_neg hh, if_neg fun h => hh (hk.mp h)]
  · show nn _ = nn _
    congr 1
    rw [List.map_map]
    exact List.map_congr_left fun x hx => hlet x (k2.subset (List.mem_append_right _ hx))

/-- Strings numbered by their positions in a product. -/
def positional (ls : List (List L)) : List (ℕ × List L) := ls.zipIdx.map fun x => (x.2, x.1)

/-- The sum over the contractions of a product of strings that have a property. -/
noncomputable def stringsSum (contr : List L → R) (nn : List L → M) (Q : List ℕ → List (List (ℕ × ℕ × L)) → Prop) (ls : List (List L)) : M :=
  rowsSum (blockK contr Prod.fst fun x => x.2.2) (fun r => nn (r.map fun x => x.2.2)) (Q (List.range ls.length)) (tagWord (positional ls))

theorem tagWord_positional (l : List (ℕ × List L)) :
    (tagWord (positional (l.map Prod.snd))).map (fun x => ((l.map Prod.fst).getD x.1 0, x.2)) = tagWord l := by
  unfold tagWord positional
  rw [List.zipIdx_map, List.map_map, List.flatMap_map, List.map_flatMap]
  have h2 : l.zipIdx.flatMap (fun x => tagAt x.1.1 x.1.2) = l.flatMap fun q => tagAt q.1 q.2 := by
    conv_rhs => rw [← List.zipIdx_map_fst 0 l, List.flatMap_map]
  rw [← h2]
  refine List.flatMap_congr fun x hx => ?_
  have hx' := List.mem_zipIdx_iff_getElem?.mp (show (x.1, x.2) ∈ l.zipIdx from hx)
  have : (l.map Prod.fst).getD x.2 0 = x.1.1 := by
    simp [List.getD, hx']
  simp only [Function.comp, Prod.map, id, tagAt, List.map_map]
  refine List.map_congr_left fun y _ => ?_
  show ((l.map Prod.fst).getD x.2 0, y.2, y.1) = (x.1.1, y.2, y.1)
  rw [this]

theorem positional_key {ls : List (List L)} {x : ℕ × ℕ × L} (h : x ∈ tagWord (positional ls)) : x.1 < ls.length := by
  obtain ⟨q, hq, hx⟩ := List.mem_flatMap.mp h
  rw [tagAt_key hx]
  obtain ⟨y, hy, rfl⟩ := List.mem_map.mp hq
  have := List.mem_zipIdx_iff_getElem?.mp (show (y.1, y.2) ∈ ls.zipIdx from hy)
  exact (List.getElem?_eq_some_iff.mp this).1

theorem stringsSum_keys (contr : List L → R) (nn : List L → M) {l : List (ℕ × List L)} (hn : (l.map Prod.fst).Nodup) {keys : List ℕ}
    (hkeys : ∀ k, k ∈ keys ↔ k ∈ l.map Prod.fst) :
    rowsSum (blockK contr Prod.fst fun x => x.2.2) (fun r => nn (r.map fun x => x.2.2)) (fun B => ¬ PairConnB Prod.fst keys B) (tagWord l) =
      stringsSum contr nn (fun keys B => ¬ PairConnB Prod.fst keys B) (l.map Prod.snd) := by
  unfold stringsSum
  conv_lhs => rw [← tagWord_positional l]
  have hk : ∀ k (hk : k < l.length), (l.map Prod.fst).getD k 0 = (l.map Prod.fst)[k]'(by simpa using hk) := by
    intro k hk
    rw [List.getD_eq_getElem?_getD, List.getElem?_eq_getElem (by simpa using hk)]
    rfl
  have hinj : ∀ k ∈ List.range (l.map Prod.snd).length, ∀ k' ∈ List.range (l.map Prod.snd).length,
      (l.map Prod.fst).getD k 0 = (l.map Prod.fst).getD k' 0 → k = k' := by
    intro k hk1 k' hk2 e
    simp only [List.mem_range, List.length_map] at hk1 hk2
    rw [hk k hk1, hk k' hk2] at e
    exact (List.Nodup.getElem_inj_iff hn).mp e
  have hin : ∀ x ∈ tagWord (positional (l.map Prod.snd)), x.1 ∈ List.range (l.map Prod.snd).length := fun x hx =>
    List.mem_range.mpr (positional_key hx)
  refine rowsSum_relabel contr nn _ (fun k => (l.map Prod.fst).getD k 0) (keys := List.range (l.map Prod.snd).length)
    (fun x hx => ⟨rfl, hin x hx⟩) hinj (fun x _ => rfl) fun B hB => not_congr ?_
  refine pairConnB_relabel _ (fun k => (l.map Prod.fst).getD k 0) (fun b hb x hx => ⟨rfl, hin x (hB b hb x hx)⟩) hinj fun k' => ?_
  rw [hkeys]
  constructor
  · intro h
    obtain ⟨k, hk', e⟩ := List.mem_iff_getElem.mp h
    have hk2 : k < l.length := by simpa using hk'
    exact ⟨k, by simpa using hk2, by rw [hk k hk2]; exact e⟩
  · rintro ⟨k, hk1, rfl⟩
    have hk2 : k < l.length := by simpa using hk1
    rw [hk k hk2]
    exact List.getElem_mem _

theorem sides_map {β γ : Type} (f : β → γ) (h : β) (as : List β) :
    sides (f h) (as.map f) = (sides h as).map fun p => (p.1, p.2.map f) := by
  induction as with
  | nil => rfl
  | cons a r ih =>
    rw [List.map_cons, sides, ih, sides, List.flatMap_map, List.map_flatMap]
    simp

theorem numbered_snd (as : List (List L)) : (numbered as).map Prod.snd = as := by
  induction as with
  | nil => rfl
  | cons s r ih => rw [numbered, List.map_cons, ih]

/-- The disconnected contractions cancel in a nested commutator of strings. -/
theorem sides_stringsSum {contr : List L → R} {nn : List L → M}
    (hodd : ∀ b, b.length % 2 = 1 → contr b = 0)
    (hswap : ∀ p q x y, 3 ≤ (p ++ q).length + 2 → contr (p ++ y :: x :: q) = - contr (p ++ x :: y :: q))
    (hN : ∀ p q x y, nn (p ++ y :: x :: q) = - nn (p ++ x :: y :: q)) (s0 : List L) {as : List (List L)} (hne : as ≠ [])
    (heven : ∀ s ∈ as, 2 ∣ s.length) :
    ((sides s0 as).map fun p => p.1 • stringsSum contr nn (fun keys B => ¬ PairConnB Prod.fst keys B) p.2).sum = 0 := by
  classical
  have h := sides_rowsSum (L := L) (R := R) (M := M) (K := blockK contr Prod.fst fun x => x.2.2) (N := fun r => nn (r.map fun x => x.2.2))
    (by
      intro b hb
      unfold blockK
      split_ifs
      · exact hodd _ (by simpa using hb)
      · rfl)
    (by
      intro _ b b' hn hp h3
      have hF : AntisymmFn fun w : List (ℕ × ℕ × L) => if 3 ≤ w.length then blockK contr Prod.fst (fun x => x.2.2) w else 0 := by
        intro p q x y _
        beta_reduce
        have e : (p ++ y :: x :: q).length = (p ++ x :: y :: q).length := by simp
        rw [e]
        split_ifs with hl
        · have hm : ∀ z, z ∈ p ++ y :: x :: q ↔ z ∈ p ++ x :: y :: q := fun z =>
            ((List.Perm.swap x y q).append_left p).mem_iff
          unfold blockK
          simp only [hm]
          split_ifs
          · simp only [List.map_append, List.map_cons]
            exact hswap _ _ _ _ (by simp at hl ⊢; omega)
          · simp
        · simp
      have := hF.relSign hn hp
      beta_reduce at this
      rw [if_pos h3, if_pos (by rw [← hp.length_eq]; exact h3)] at this
      rw [this, zsmul_eq_mul])
    (by
      intro p q x y _
      simp only [List.map_append, List.map_cons]
      exact hN _ _ _ _)
    s0 hne heven
  rw [← h]
  conv_lhs => rw [← numbered_snd as, show s0 = Prod.snd ((0 : ℕ), s0) from rfl, sides_map]
  rw [List.map_map]
  congr 1
  refine List.map_congr_left fun p hp => ?_
  simp only [Function.comp]
  have hperm := connectedSides_perm _ hp
  rw [stringsSum_keys contr nn ((hperm.map Prod.fst).nodup_iff.mpr (numbered_keys_nodup s0 as))]
  intro k
  rw [(hperm.map Prod.fst).mem_iff, List.map_cons, numbered_keys]
  simp only [List.mem_range, List.mem_cons, List.mem_reverse, List.mem_range'_1]
  omega

end

section
variable {L R M : Type} [CommRing R] [AddCommGroup M] [Module R M]

/-- The linear extension of a function of products of strings. -/
noncomputable def linearize (F : List (List L) → M) : MonoidAlgebra R (FreeMonoid (List L)) →ₗ[R] M where
  toFun := fun x => Finsupp.linearCombination R (fun m : FreeMonoid (List L) => F m.toList) x.coeff
  map_add' := fun x y => by simp
  map_smul' := fun r x => by simp

/-- A product of strings. -/
noncomputable def stringProduct (ls : List (List L)) : MonoidAlgebra R (FreeMonoid (List L)) := MonoidAlgebra.single (FreeMonoid.ofList ls) 1

@[simp] theorem linearize_product (F : List (List L) → M) (ls : List (List L)) : linearize F (stringProduct (R := R) ls) = F ls := by
  simp [linearize, stringProduct]

theorem stringProduct_append (a b : List (List L)) : (stringProduct (a ++ b) : MonoidAlgebra R (FreeMonoid (List L))) = stringProduct a * stringProduct b := by
  simp [stringProduct, MonoidAlgebra.single_mul_single]

theorem stringProduct_list (ls : List (List L)) : (ls.map fun s => (stringProduct [s] : MonoidAlgebra R (FreeMonoid (List L)))).prod = stringProduct ls := by
  induction ls with
  | nil => rfl
  | cons s ls ih =>
    rw [List.map_cons, List.prod_cons, ih, ← stringProduct_append]
    rfl

theorem linearize_sub (F G : List (List L) → M) (x : MonoidAlgebra R (FreeMonoid (List L))) :
    linearize (fun ls => F ls - G ls) x = linearize F x - linearize G x := by
  simp only [linearize, LinearMap.coe_mk, AddHom.coe_mk]
  rw [Finsupp.linearCombination_apply, Finsupp.linearCombination_apply, Finsupp.linearCombination_apply, ← Finsupp.sum_sub]
  simp only [smul_sub]

/-- The commutators of strings, the outermost first. -/
noncomputable def commutators (s0 : List L) : List (List L) → MonoidAlgebra R (FreeMonoid (List L))
  | [] => stringProduct [s0]
  | a :: r => commutators s0 r * stringProduct [a] - stringProduct [a] * commutators s0 r

theorem commutators_eq (s0 : List L) (as : List (List L)) :
    (commutators s0 as : MonoidAlgebra R (FreeMonoid (List L))) = ((sides s0 as).map fun p => p.1 • stringProduct p.2).sum := by
  induction as with
  | nil => simp [commutators, sides]
  | cons a r ih =>
    rw [commutators, ih, sides_cons_sum, ← List.sum_map_mul_right, ← List.sum_map_mul_left]
    generalize sides s0 r = S
    induction S with
    | nil => simp
    | cons p S ihS =>
      simp only [List.map_cons, List.sum_cons] at ihS ⊢
      rw [← ihS, stringProduct_append, show a :: p.2 = [a] ++ p.2 from rfl, stringProduct_append, smul_sub, smul_mul_assoc, mul_smul_comm]
      abel

theorem nestedCommutator_span {x y : MonoidAlgebra R (FreeMonoid (List L))}
    (hx : x ∈ Submodule.span R (Set.range fun s => stringProduct [s]))
    (hy : y ∈ Submodule.span R ((fun s => stringProduct [s]) '' {s : List L | 2 ∣ s.length})) (n : ℕ) :
    nestedCommutator x y n ∈ Submodule.span R {z | ∃ s0 as, as.length = n ∧ (∀ s ∈ as, 2 ∣ s.length) ∧ z = commutators s0 as} := by
  induction n with
  | zero =>
    refine Submodule.span_mono ?_ hx
    rintro _ ⟨s, rfl⟩
    exact ⟨s, [], rfl, by simp, rfl⟩
  | succ n ih =>
    rw [nestedCommutator]
    generalize nestedCommutator x y n = u at ih
    induction ih using Submodule.span_induction with
    | mem u hu =>
      obtain ⟨s0, as, hl, he, rfl⟩ := hu
      induction hy using Submodule.span_induction with
      | mem y hy =>
        obtain ⟨s, hs, rfl⟩ := hy
        exact Submodule.subset_span ⟨s0, s :: as, by simp [hl], by
          intro t ht
          rcases List.mem_cons.mp ht with rfl | ht
          · exact hs
          · exact he t ht, rfl⟩
      | zero => simp
      | add y z _ _ hy hz =>
        rw [mul_add, add_mul, add_sub_add_comm]
        exact Submodule.add_mem _ hy hz
      | smul r y _ hy =>
        rw [mul_smul_comm, smul_mul_assoc, ← smul_sub]
        exact Submodule.smul_mem _ _ hy
    | zero => simp
    | add u v _ _ hu hv =>
      rw [mul_add, add_mul, add_sub_add_comm]
      exact Submodule.add_mem _ hu hv
    | smul r u _ hu =>
      rw [mul_smul_comm, smul_mul_assoc, ← smul_sub]
      exact Submodule.smul_mem _ _ hu

/-- A function of products of strings that vanishes on nested commutators of strings. -/
theorem linearize_nested {F : List (List L) → M} {n : ℕ}
    (hF : ∀ s0 as, as.length = n → (∀ s ∈ as, 2 ∣ s.length) → ((sides s0 as).map fun p => p.1 • F p.2).sum = 0)
    {x y : MonoidAlgebra R (FreeMonoid (List L))} (hx : x ∈ Submodule.span R (Set.range fun s => stringProduct [s]))
    (hy : y ∈ Submodule.span R ((fun s => stringProduct [s]) '' {s : List L | 2 ∣ s.length})) :
    linearize F (nestedCommutator x y n) = 0 := by
  have h := nestedCommutator_span hx hy n
  generalize nestedCommutator x y n = u at h
  induction h using Submodule.span_induction with
  | mem u hu =>
    obtain ⟨s0, as, hl, he, rfl⟩ := hu
    rw [commutators_eq, map_list_sum, List.map_map]
    refine Eq.trans ?_ (hF s0 as hl he)
    congr 1
    refine List.map_congr_left fun p _ => ?_
    simp only [Function.comp]
    rw [map_zsmul, linearize_product]
  | zero => simp
  | add u v _ _ hu hv => rw [map_add, hu, hv, add_zero]
  | smul r u _ hu => rw [map_smul, hu, smul_zero]

end

section
variable {L R A : Type} [CommRing R] [Ring A] [Algebra R A]

/-- The algebra homomorphism that replaces every string by an operator. -/
noncomputable def evaluate (nn : List L → A) : MonoidAlgebra R (FreeMonoid (List L)) →ₐ[R] A :=
  MonoidAlgebra.lift R A (FreeMonoid (List L)) (FreeMonoid.lift nn)

theorem evaluate_product (nn : List L → A) (ls : List (List L)) : evaluate nn (stringProduct (R := R) ls) = (ls.map nn).prod := by
  simp [evaluate, stringProduct, FreeMonoid.lift_apply]

theorem linearize_eq_evaluate (nn : List L → A) (x : MonoidAlgebra R (FreeMonoid (List L))) :
    linearize (fun ls => (ls.map nn).prod) x = evaluate nn x := by
  have : linearize (fun ls => (ls.map nn).prod) = (evaluate nn : MonoidAlgebra R (FreeMonoid (List L)) →ₐ[R] A).toLinearMap := by
    refine MonoidAlgebra.lhom_ext' fun m => ?_
    ext
    have h1 := linearize_product (R := R) (fun ls : List (List L) => (ls.map nn).prod) m.toList
    have h2 := evaluate_product (R := R) nn m.toList
    simp only [stringProduct, FreeMonoid.ofList_toList] at h1 h2
    simp [h1, h2]
  rw [this]; rfl

theorem evaluate_nested (nn : List L → A) (x y : MonoidAlgebra R (FreeMonoid (List L))) (n : ℕ) :
    evaluate nn (nestedCommutator x y n) = nestedCommutator (evaluate nn x) (evaluate nn y) n := by
  induction n with
  | zero => rfl
  | succ n ih => rw [nestedCommutator, nestedCommutator, map_sub, map_mul, map_mul, ih]

theorem keyed_positional (ls : List (List L)) : Keyed Prod.fst ((positional ls).map fun q => tagAt q.1 q.2) := by
  refine ⟨fun l hl x hx y hy => ?_, ?_⟩
  · obtain ⟨q, -, rfl⟩ := List.mem_map.mp hl
    rw [tagAt_key hx, tagAt_key hy]
  · rw [List.pairwise_map]
    have : ((positional ls).map Prod.fst).Nodup := by
      have : (positional ls).map Prod.fst = List.range' 0 ls.length := by
        rw [positional, List.map_map, ← List.zipIdx_map_snd 0 ls]; rfl
      rw [this]; exact List.nodup_range'
    refine (List.pairwise_map.mp this).imp fun {q q'} hne x hx y hy => ?_
    rw [tagAt_key hx, tagAt_key hy]
    exact hne

/-- Wick's theorem: all contractions of a product of strings. -/
theorem stringsSum_all {field : L → A} {contr : List L → R} (h : ContractionRules field contr) (ls : List (List L)) :
    stringsSum contr (normalOrder field contr) (fun _ _ => True) ls = (ls.map (normalOrder field contr)).prod := by
  classical
  unfold stringsSum
  rw [rowsSum_all]
  have hr := h.map (fun x : ℕ × ℕ × L => x.2.2)
  have hw := wick hr Prod.fst (blockK contr Prod.fst fun x => x.2.2) ((positional ls).map fun q => tagAt q.1 q.2) (keyed_positional ls)
    (fun b hb => if_neg (by push Not; exact hb)) (fun b hb => if_pos hb) (tagWord (positional ls)).length (by
      rw [tagWord, List.flatMap_def])
  rw [← List.flatMap_def] at hw
  have e : (fun r : List (ℕ × ℕ × L) => normalOrder field contr (r.map fun x => x.2.2)) =
      normalOrder (fun x : ℕ × ℕ × L => field x.2.2) fun b => contr (b.map fun x => x.2.2) := by
    funext r
    exact normalOrder_map field contr _ r
  rw [e]
  refine Eq.trans hw.symm ?_
  rw [List.map_map, positional, List.map_map]
  conv_rhs => rw [← List.zipIdx_map_fst 0 ls, List.map_map]
  congr 1
  refine List.map_congr_left fun x _ => ?_
  simp only [Function.comp]
  rw [← normalOrder_map field contr (fun x : ℕ × ℕ × L => x.2.2), tagAt_letters]

theorem stringsSum_split {M : Type} [AddCommGroup M] [Module R M] (contr : List L → R) (nn : List L → M) (Q : List ℕ → List (List (ℕ × ℕ × L)) → Prop)
    (ls : List (List L)) :
    stringsSum contr nn Q ls = stringsSum contr nn (fun _ _ => True) ls - stringsSum contr nn (fun k B => ¬ Q k B) ls := by
  unfold stringsSum
  rw [rowsSum_split _ _ (Q (List.range ls.length))]
  simp

/-- The connected contractions of a nested commutator of operators add up to the nested commutator. -/
theorem connected_nested {field : L → A} {contr : List L → R} (h : ContractionRules field contr)
    {x y : MonoidAlgebra R (FreeMonoid (List L))} (hx : x ∈ Submodule.span R (Set.range fun s => stringProduct [s]))
    (hy : y ∈ Submodule.span R ((fun s => stringProduct [s]) '' {s : List L | 2 ∣ s.length})) {n : ℕ} (hn : 1 ≤ n) :
    linearize (stringsSum contr (normalOrder field contr) (PairConnB Prod.fst)) (nestedCommutator x y n) =
      nestedCommutator (evaluate (normalOrder field contr) x) (evaluate (normalOrder field contr) y) n := by
  have e : stringsSum contr (normalOrder field contr) (PairConnB Prod.fst) = fun ls =>
      (ls.map (normalOrder field contr)).prod - stringsSum contr (normalOrder field contr) (fun k B => ¬ PairConnB Prod.fst k B) ls := by
    funext ls
    rw [stringsSum_split, stringsSum_all h]
  rw [e, linearize_sub, linearize_eq_evaluate, evaluate_nested, linearize_nested ?_ hx hy, sub_zero]
  intro s0 as hl he
  refine sides_stringsSum h.odd (fun p q x y hl => h.swap p q x y hl) (fun p q x y => normalOrder_swap h p q x y) s0 ?_ he
  rintro rfl
  simp at hl; omega

end

end Dsrg
