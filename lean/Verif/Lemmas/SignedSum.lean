import Verif.Spec.Singlet
import Verif.Lemmas.Sign
import Verif.Lemmas.Itertools
import Mathlib.GroupTheory.Perm.Fin

/-!
Signed sums over the rearrangements of a list.
-/

namespace Dsrg

theorem sign_eq_numInversions {n : Nat} (π : Equiv.Perm (Fin n)) :
    (Equiv.Perm.sign π : ℤ) = signPow (invCount (List.ofFn fun i => (π i).val)) := by
  rw [invCount_eq_numInversions, numInversions, π.sign_eq_prod_prod_Iio]
  have h1 : (∏ j : Fin n, ∏ i ∈ Finset.Iio j, (if π i < π j then (1 : ℤˣ) else -1)) =
      ∏ p : Fin n × Fin n, if p.1 < p.2 ∧ π p.2 < π p.1 then (-1 : ℤˣ) else 1 := by
    rw [Fintype.prod_prod_type_right]
    apply Finset.prod_congr rfl
    intro j _
    rw [← Finset.prod_subset (Finset.subset_univ (Finset.Iio j))]
    · apply Finset.prod_congr rfl
      intro i hi
      rw [Finset.mem_Iio] at hi
      have : π i ≠ π j := fun h => hi.ne (π.injective h)
      rcases lt_or_gt_of_ne this with h | h
      · simp [h, h.not_gt]
      · simp [h, h.not_gt, hi]
    · intro i _ hi
      rw [Finset.mem_Iio] at hi
      simp [hi]
  rw [h1, Finset.prod_ite, Finset.prod_const, Finset.prod_const_one, mul_one]
  have hlen : (List.ofFn fun i => (π i).val).length = n := List.length_ofFn
  have h2 : (Finset.univ.filter fun p : Fin n × Fin n => p.1 < p.2 ∧ π p.2 < π p.1).card =
      (Finset.univ.filter fun p : Fin (List.ofFn fun i => (π i).val).length × Fin (List.ofFn fun i => (π i).val).length =>
        p.1 < p.2 ∧ (List.ofFn fun i => (π i).val).get p.2 < (List.ofFn fun i => (π i).val).get p.1).card := by
    apply Finset.card_bij (fun p _ => (Fin.cast hlen.symm p.1, Fin.cast hlen.symm p.2))
    · intro p hp
      simpa using hp
    · intro p _ q _ h
      simpa [Prod.ext_iff, Fin.ext_iff] using h
    · intro q hq
      refine ⟨(Fin.cast hlen q.1, Fin.cast hlen q.2), ?_, by simp⟩
      simpa [Fin.cast] using hq
  rw [h2, signPow]
  simp

theorem signedSum_range {X M : Type} [AddCommGroup M] (f : List X → M) (l : List X) :
    signedSum f l = ((pyPermutations (List.range l.length)).map fun p => signPow (invCount p) • f (p.filterMap fun k => l[k]?)).sum := by
  rw [← List.sum_toFinset _ (nodup_pyPermutations List.nodup_range), signedSum]
  apply Finset.sum_bij (fun (π : Equiv.Perm (Fin l.length)) _ => List.ofFn fun i => (π i).val)
  · intro π _
    rw [List.mem_toFinset, mem_pyPermutations, List.perm_ext_iff_of_nodup _ List.nodup_range]
    · intro k
      simp only [List.mem_ofFn, List.mem_range]
      constructor
      · rintro ⟨i, rfl⟩; exact (π i).isLt
      · intro hk
        exact ⟨π.symm ⟨k, hk⟩, by simp⟩
    · rw [List.nodup_ofFn]
      intro i j hij
      exact π.injective (Fin.ext hij)
  · intro π _ π' _ h
    have := List.ofFn_injective h
    ext i
    exact congrFun this i
  · intro p hp
    rw [List.mem_toFinset, mem_pyPermutations] at hp
    have hlen : p.length = l.length := by simpa using hp.length_eq
    have hlt : ∀ i : Fin l.length, p[i.val]'(by omega) < l.length := fun i =>
      List.mem_range.1 (hp.subset (List.getElem_mem _))
    have hinj : Function.Injective fun i : Fin l.length => (⟨p[i.val]'(by omega), hlt i⟩ : Fin l.length) := by
      intro i j hij
      simp only [Fin.mk.injEq] at hij
      exact Fin.ext (((hp.nodup_iff).2 List.nodup_range).getElem_inj_iff.1 hij)
    refine ⟨Equiv.ofBijective _ (Finite.injective_iff_bijective.1 hinj), Finset.mem_univ _, ?_⟩
    apply List.ext_getElem
    · simp [hlen]
    · intro i h1 h2
      simp
  · intro π _
    rw [sign_eq_numInversions]
    congr 2
    rw [List.ofFn_eq_map, List.ofFn_eq_map, List.filterMap_map]
    have : ((fun k => l[k]?) ∘ fun i : Fin l.length => (π i).val) = fun i => some (l.get (π i)) := by
      funext i; simp
    rw [this]
    simp

theorem picks_map {α β : Type} (g : α → β) (l : List α) : picks (l.map g) = (picks l).map fun p => (g p.1, p.2.map g) := by
  induction l with
  | nil => rfl
  | cons x xs ih => simp [picks, ih]

theorem pyPermutationsAux_map {α β : Type} (g : α → β) (n : Nat) (l : List α) :
    pyPermutationsAux n (l.map g) = (pyPermutationsAux n l).map (List.map g) := by
  induction n generalizing l with
  | zero => rfl
  | succ n ih => simp [pyPermutationsAux, picks_map, List.flatMap_map, List.map_flatMap, ih, Function.comp_def]

theorem pyPermutations_map {α β : Type} (g : α → β) (l : List α) :
    pyPermutations (l.map g) = (pyPermutations l).map (List.map g) := by
  rw [pyPermutations, List.length_map, pyPermutationsAux_map]; rfl

/-- Rearrangements of a list without repeats, listed with positions. -/
theorem sum_range_eq {X M : Type} [DecidableEq X] [AddCommGroup M] (f : List X → M) {l : List X} (hn : l.Nodup) :
    ((pyPermutations (List.range l.length)).map fun p => signPow (invCount p) • f (p.filterMap fun k => l[k]?)).sum =
      ((pyPermutations l).map fun L => relSign l L • f L).sum := by
  rcases l with _ | ⟨d, tl⟩
  · simp [pyPermutations, pyPermutationsAux, relSign, invCount, signPow]
  set l := d :: tl with hl
  let g : Nat → X := fun k => l[k]?.getD d
  have hg : l = (List.range l.length).map g := by
    apply List.ext_getElem
    · simp
    · intro i h1 h2
      simp [g, h1]
  conv_rhs => rw [show pyPermutations l = (pyPermutations (List.range l.length)).map (List.map g) by
    conv_lhs => rw [hg]
    rw [pyPermutations_map]]
  rw [List.map_map]
  congr 1
  apply List.map_congr_left
  intro p hp
  rw [mem_pyPermutations] at hp
  have hlt : ∀ k ∈ p, k < l.length := fun k hk => List.mem_range.1 (hp.subset hk)
  have h1 : (p.filterMap fun k => l[k]?) = p.map g := by
    rw [← List.filterMap_eq_map]
    apply List.filterMap_congr
    intro k hk
    simp [g, hlt k hk]
  have h2 : (p.map g).map (fun v => l.idxOf v) = p := by
    rw [List.map_map]
    conv_rhs => rw [← List.map_id p]
    apply List.map_congr_left
    intro k hk
    simp only [Function.comp_apply, g, List.getElem?_eq_getElem (hlt k hk), Option.getD_some, id]
    exact hn.idxOf_getElem _ _
  simp only [Function.comp_apply, h1, relSign, h2]

theorem signedSum_eq {X M : Type} [DecidableEq X] [AddCommGroup M] (f : List X → M) {l : List X} (hn : l.Nodup) :
    signedSum f l = ((pyPermutations l).map fun L => relSign l L • f L).sum := by
  rw [signedSum_range, sum_range_eq f hn]

theorem signedSum_map {X Y M : Type} [AddCommGroup M] (g : X → Y) (f : List Y → M) (l : List X) :
    signedSum f (l.map g) = signedSum (fun L => f (L.map g)) l := by
  rw [signedSum_range, signedSum_range, List.length_map]
  congr 1
  apply List.map_congr_left
  intro p _
  congr 2
  rw [List.map_filterMap]
  simp

/-- The signed sum changes sign with the list. -/
theorem antisymmFn_signedSum {X M : Type} [DecidableEq X] [AddCommGroup M] (f : List X → M) : AntisymmFn (signedSum f) := by
  intro pre post a b hn
  have hp : (pre ++ b :: a :: post).Perm (pre ++ a :: b :: post) := (List.Perm.swap _ _ _).append_left pre
  have hn' := (hp.nodup_iff).2 hn
  rw [signedSum_eq f hn, signedSum_eq f hn']
  have h1 : (pyPermutations (pre ++ b :: a :: post)).Perm (pyPermutations (pre ++ a :: b :: post)) := by
    rw [List.perm_ext_iff_of_nodup (nodup_pyPermutations hn') (nodup_pyPermutations hn)]
    intro L
    rw [mem_pyPermutations, mem_pyPermutations]
    exact ⟨fun h => h.trans hp, fun h => h.trans hp.symm⟩
  rw [(h1.map _).sum_eq, List.sum_neg]
  congr 1
  rw [List.map_map]
  apply List.map_congr_left
  intro L hL
  rw [mem_pyPermutations] at hL
  have h2 : relSign (pre ++ a :: b :: post) (pre ++ b :: a :: post) = -1 := by
    have := antisymmFn_relSign (pre ++ a :: b :: post) pre post a b hn
    simpa [hp, relSign_self hn] using this
  rw [relSign_comm hn' (hp.trans hL.symm), relSign_mul ((hL.nodup_iff).2 hn) hL hp.symm, h2]
  simp only [Function.comp_apply]
  rw [relSign_comm hn hL.symm]
  simp

/-- Exchange of the entries at positions `k` and `k + 1`. -/
def swapAt {X : Type} (k : Nat) (L : List X) : List X := L.take k ++ match L.drop k with
  | x :: y :: Q => y :: x :: Q
  | Q => Q

theorem swapAt_append {X : Type} (P Q : List X) (x y : X) : swapAt P.length (P ++ x :: y :: Q) = P ++ y :: x :: Q := by
  simp [swapAt]

theorem swapAt_cases {X : Type} (k : Nat) (L : List X) :
    (∃ P x y Q, P.length = k ∧ L = P ++ x :: y :: Q) ∨ swapAt k L = L ∧ L.length < k + 2 := by
  by_cases h : k + 2 ≤ L.length
  · left
    refine ⟨L.take k, L[k], L[k + 1], L.drop (k + 2), by simp; omega, ?_⟩
    rw [← List.drop_eq_getElem_cons, ← List.drop_eq_getElem_cons, List.take_append_drop]
  · right
    refine ⟨?_, by omega⟩
    rw [swapAt]
    have hd : (L.drop k).length ≤ 1 := by simp; omega
    rcases hq : L.drop k with _ | ⟨x, _ | ⟨y, Q⟩⟩
    · conv_rhs => rw [← List.take_append_drop k L, hq]
    · conv_rhs => rw [← List.take_append_drop k L, hq]
    · rw [hq] at hd; simp at hd

theorem swapAt_swapAt {X : Type} (k : Nat) (L : List X) : swapAt k (swapAt k L) = L := by
  rcases swapAt_cases k L with ⟨P, x, y, Q, rfl, rfl⟩ | ⟨h, _⟩
  · rw [swapAt_append, swapAt_append]
  · rw [h, h]

theorem swapAt_perm {X : Type} (k : Nat) (L : List X) : (swapAt k L).Perm L := by
  rcases swapAt_cases k L with ⟨P, x, y, Q, rfl, rfl⟩ | ⟨h, _⟩
  · rw [swapAt_append]; exact (List.Perm.swap _ _ _).append_left P
  · rw [h]

/-- A function of two lists that does not change when neighbours are exchanged at the same positions in both. -/
def PairSymmFn {X M : Type} (F : List X → List X → M) : Prop := ∀ pre a b post pre' a' b' post', pre.length = pre'.length →
  F (pre ++ b :: a :: post) (pre' ++ b' :: a' :: post') = F (pre ++ a :: b :: post) (pre' ++ a' :: b' :: post')

/-- The signed sum over the lower labels changes sign with the upper labels. -/
theorem antisymmFn_upper {X M : Type} [DecidableEq X] [AddCommGroup M] (spin : X → Bool) {F : List X → List X → M} (hF : PairSymmFn F) {l : List X}
    (hn : l.Nodup) : AntisymmFn fun u => signedSum (fun L => if u.map spin = L.map spin then F u L else 0) l := by
  intro pre post a b _
  simp only [signedSum_eq _ hn]
  rw [← List.sum_toFinset _ (nodup_pyPermutations hn), ← List.sum_toFinset _ (nodup_pyPermutations hn), ← Finset.sum_neg_distrib]
  have hm : ∀ L ∈ (pyPermutations l).toFinset, swapAt pre.length L ∈ (pyPermutations l).toFinset := by
    intro L hL
    rw [List.mem_toFinset, mem_pyPermutations] at hL ⊢
    exact (swapAt_perm _ L).trans hL
  apply Finset.sum_nbij' (swapAt pre.length) (swapAt pre.length) hm hm (fun L _ => swapAt_swapAt _ L) (fun L _ => swapAt_swapAt _ L)
  intro L hL
  rw [List.mem_toFinset, mem_pyPermutations] at hL
  rcases swapAt_cases pre.length L with ⟨P, x, y, Q, hP, rfl⟩ | ⟨h, hlen⟩
  · rw [← hP, swapAt_append, hF pre a b post P y x Q hP.symm]
    have hc : (pre ++ b :: a :: post).map spin = (P ++ x :: y :: Q).map spin ↔ (pre ++ a :: b :: post).map spin = (P ++ y :: x :: Q).map spin := by
      simp only [List.map_append, List.map_cons]
      have key : ∀ (p p' q q' : List Bool), p.length = p'.length → (p ++ q = p' ++ q' ↔ p = p' ∧ q = q') :=
        fun p p' q q' hl => ⟨fun h => List.append_inj h hl, fun h => by rw [h.1, h.2]⟩
      rw [key _ _ _ _ (by simp [hP]), key _ _ _ _ (by simp [hP])]
      simp only [List.cons.injEq]
      tauto
    by_cases hs : (pre ++ a :: b :: post).map spin = (P ++ y :: x :: Q).map spin
    · rw [if_pos hs, if_pos (hc.2 hs)]
      have hL' : (P ++ y :: x :: Q).Perm l := (((List.Perm.swap _ _ _).append_left P)).trans hL
      have h2 := antisymmFn_relSign l P Q y x ((hL'.nodup_iff).2 hn)
      simp only [hL, hL', if_true] at h2
      rw [h2]
      simp
    · rw [if_neg hs, if_neg (fun h => hs (hc.1 h))]
      simp
  · have hne : ∀ c d : X, (pre ++ c :: d :: post).map spin ≠ L.map spin := by
      intro c d h
      have := congrArg List.length h
      simp at this
      omega
    rw [h, if_neg (hne _ _), if_neg (hne _ _)]
    simp

/-- Relative signs of two blocks. -/
theorem relSign_append {X : Type} [DecidableEq X] {a b A B : List X} (hn : (a ++ b).Nodup) (hA : A.Perm a) (hB : B.Perm b) :
    relSign (a ++ b) (A ++ B) = relSign a A * relSign b B := by
  have h1 : relSign (a ++ b) (A ++ b) = relSign a A := by
    have hS : AntisymmFn fun X' : List X => if X'.Perm a then relSign (a ++ b) (X' ++ b) else 0 := by
      intro pre post x y hn'
      have hp : (pre ++ y :: x :: post).Perm a ↔ (pre ++ x :: y :: post).Perm a :=
        ⟨fun h => ((List.Perm.swap _ _ _).append_left pre).trans h, fun h => ((List.Perm.swap _ _ _).append_left pre).trans h⟩
      by_cases hx : (pre ++ x :: y :: post).Perm a
      · simp only [hx, hp.2 hx, if_true]
        have hx' : (pre ++ x :: y :: (post ++ b)).Perm (a ++ b) := by simpa using hx.append_right b
        have hy' : (pre ++ y :: x :: (post ++ b)).Perm (a ++ b) := by simpa using (hp.2 hx).append_right b
        have := antisymmFn_relSign (a ++ b) pre (post ++ b) x y ((hx'.nodup_iff).2 hn)
        simpa [hx', hy'] using this
      · simp [hx, mt hp.1 hx]
    have := hS.relSign (List.nodup_append.1 hn).1 hA.symm
    simp only [List.Perm.refl, if_true, hA, relSign_self hn, smul_eq_mul] at this
    calc relSign (a ++ b) (A ++ b) = relSign a A * relSign a A * relSign (a ++ b) (A ++ b) := by rw [relSign_sq, one_mul]
      _ = relSign a A := by rw [mul_assoc, ← this, mul_one]
  have h2 : relSign (A ++ b) (A ++ B) = relSign b B := by
    have hn2 : (A ++ b).Nodup := ((hA.append_right b).nodup_iff).2 hn
    have hS : AntisymmFn fun X' : List X => if X'.Perm b then relSign (A ++ b) (A ++ X') else 0 := by
      intro pre post x y hn'
      have hp : (pre ++ y :: x :: post).Perm b ↔ (pre ++ x :: y :: post).Perm b :=
        ⟨fun h => ((List.Perm.swap _ _ _).append_left pre).trans h, fun h => ((List.Perm.swap _ _ _).append_left pre).trans h⟩
      by_cases hx : (pre ++ x :: y :: post).Perm b
      · simp only [hx, hp.2 hx, if_true]
        have hx' : ((A ++ pre) ++ x :: y :: post).Perm (A ++ b) := by simpa using hx.append_left A
        have hy' : ((A ++ pre) ++ y :: x :: post).Perm (A ++ b) := by simpa using (hp.2 hx).append_left A
        have := antisymmFn_relSign (A ++ b) (A ++ pre) post x y ((hx'.nodup_iff).2 hn2)
        simp only [hx', hy', if_true] at this
        simpa using this
      · simp [hx, mt hp.1 hx]
    have := hS.relSign (List.nodup_append.1 hn).2.1 hB.symm
    simp only [List.Perm.refl, if_true, hB, relSign_self hn2, smul_eq_mul] at this
    calc relSign (A ++ b) (A ++ B) = relSign b B * relSign b B * relSign (A ++ b) (A ++ B) := by rw [relSign_sq, one_mul]
      _ = relSign b B := by rw [mul_assoc, ← this, mul_one]
  rw [relSign_mul hn (hA.symm.append_right b) (hB.symm.append_left A), h1, h2]

/-- For labels sorted by spin only the permutations of the two blocks match. -/
theorem signedSum_blocks {X M : Type} [DecidableEq X] [AddCommGroup M] (spin : X → Bool) (F : List X → M) (s : Bool) {k : Nat} {l1 l2 : List X} {us : List Bool}
    (hn : (l1 ++ l2).Nodup) (h1 : ∀ v ∈ l1, spin v = s) (h2 : ∀ v ∈ l2, spin v = !s) (hk : k = l1.length)
    (hu : us = List.replicate k s ++ List.replicate l2.length (!s)) :
    signedSum (fun L => if us = L.map spin then F L else 0) (l1 ++ l2) =
      ((pyPermutations l1).flatMap fun A => (pyPermutations l2).map fun B => (relSign l1 A * relSign l2 B) • F (A ++ B)).sum := by
  subst hk hu
  rw [signedSum_eq _ hn]
  have hrep : ∀ (l : List X) (b : Bool), (∀ v ∈ l, spin v = b) → l.map spin = List.replicate l.length b := by
    intro l b h
    rw [List.eq_replicate_iff]
    simp only [List.length_map, true_and, List.mem_map]
    rintro _ ⟨v, hv, rfl⟩
    exact h v hv
  have hf : ((pyPermutations (l1 ++ l2)).filter fun L => List.replicate l1.length s ++ List.replicate l2.length (!s) = L.map spin).Perm
      ((pyPermutations l1).flatMap fun A => (pyPermutations l2).map fun B => A ++ B) := by
    rw [List.perm_ext_iff_of_nodup ((nodup_pyPermutations hn).filter _)]
    · intro L
      simp only [List.mem_filter, mem_pyPermutations, decide_eq_true_eq, List.mem_flatMap, List.mem_map]
      constructor
      · rintro ⟨hp, hs⟩
        obtain ⟨A, B, rfl, hA, hB⟩ := List.map_eq_append_iff.1 hs.symm
        have hA' : ∀ v ∈ A, spin v = s := by
          intro v hv
          have : spin v ∈ A.map spin := List.mem_map_of_mem hv
          rw [hA] at this
          exact (List.mem_replicate.1 this).2
        have hB' : ∀ v ∈ B, spin v = !s := by
          intro v hv
          have : spin v ∈ B.map spin := List.mem_map_of_mem hv
          rw [hB] at this
          exact (List.mem_replicate.1 this).2
        have e1 : (A ++ B).filter (fun v => spin v == s) = A := by
          rw [List.filter_append, List.filter_eq_self.2 (fun v hv => by simp [hA' v hv]), List.filter_eq_nil_iff.2 (fun v hv => by simp [hB' v hv]), List.append_nil]
        have e2 : (A ++ B).filter (fun v => spin v == !s) = B := by
          rw [List.filter_append, List.filter_eq_nil_iff.2 (fun v hv => by simp [hA' v hv]), List.filter_eq_self.2 (fun v hv => by simp [hB' v hv]), List.nil_append]
        have e3 : (l1 ++ l2).filter (fun v => spin v == s) = l1 := by
          rw [List.filter_append, List.filter_eq_self.2 (fun v hv => by simp [h1 v hv]), List.filter_eq_nil_iff.2 (fun v hv => by simp [h2 v hv]), List.append_nil]
        have e4 : (l1 ++ l2).filter (fun v => spin v == !s) = l2 := by
          rw [List.filter_append, List.filter_eq_nil_iff.2 (fun v hv => by simp [h1 v hv]), List.filter_eq_self.2 (fun v hv => by simp [h2 v hv]), List.nil_append]
        refine ⟨A, ?_, B, ?_, rfl⟩
        · have := hp.filter (fun v => spin v == s)
          rwa [e1, e3] at this
        · have := hp.filter (fun v => spin v == !s)
          rwa [e2, e4] at this
      · rintro ⟨A, hA, B, hB, rfl⟩
        refine ⟨hA.append hB, ?_⟩
        rw [List.map_append, hrep A s (fun v hv => h1 v (hA.subset hv)), hrep B (!s) (fun v hv => h2 v (hB.subset hv)), hA.length_eq, hB.length_eq]
    · rw [List.nodup_append] at hn
      rw [List.nodup_flatMap]
      refine ⟨fun A _ => (nodup_pyPermutations hn.2.1).map (fun B B' h => List.append_cancel_left h), ?_⟩
      refine (nodup_pyPermutations hn.1).imp_of_mem ?_
      intro A A' hA hA' hne
      rw [Function.onFun, List.disjoint_left]
      simp only [List.mem_map, mem_pyPermutations] at hA hA' ⊢
      rintro _ ⟨B, _, rfl⟩ ⟨B', _, h'⟩
      exact hne (List.append_inj_left h' (by rw [hA.length_eq, hA'.length_eq])).symm
  have e1 : ((pyPermutations (l1 ++ l2)).map fun L => relSign (l1 ++ l2) L • if List.replicate l1.length s ++ List.replicate l2.length (!s) = L.map spin
      then F L else 0).sum = (((pyPermutations (l1 ++ l2)).filter fun L => List.replicate l1.length s ++ List.replicate l2.length (!s) = L.map spin).map
        fun L => relSign (l1 ++ l2) L • F L).sum := by
    induction pyPermutations (l1 ++ l2) with
    | nil => rfl
    | cons L Ls ih =>
      by_cases h : List.replicate l1.length s ++ List.replicate l2.length (!s) = L.map spin
      · rw [List.map_cons, List.sum_cons, ih, List.filter_cons_of_pos (by simpa using h), List.map_cons, List.sum_cons, if_pos h]
      · rw [List.map_cons, List.sum_cons, ih, List.filter_cons_of_neg (by simpa using h), if_neg h, smul_zero, zero_add]
  rw [e1, (hf.map _).sum_eq, List.map_flatMap]
  congr 1
  apply List.flatMap_congr
  intro A hA
  rw [List.map_map]
  apply List.map_congr_left
  intro B hB
  rw [mem_pyPermutations] at hA hB
  simp only [Function.comp_apply]
  rw [relSign_append hn hA hB]

end Dsrg
