import Verif.Model.Itertools
import Mathlib.Data.Nat.Choose.Basic
import Mathlib.Data.Nat.Factorial.Basic
import Mathlib.Data.List.Count
import Mathlib.Data.List.Dedup
import Mathlib.Data.List.Nodup
import Mathlib.Data.List.Perm.Lattice
import Mathlib.Algebra.BigOperators.Group.Finset.Basic
import Mathlib.Algebra.BigOperators.Group.Multiset.Basic
import Mathlib.Algebra.BigOperators.Ring.Finset
import Mathlib.Tactic.Ring
import Mathlib.Tactic.Linarith

/-!
The library iterators enumerate what their documentation says.
-/

namespace Dsrg

section
variable {α : Type}

theorem mem_pyProduct {pools : List (List α)} {l : List α} :
    l ∈ pyProduct pools ↔ List.Forall₂ (fun x pool => x ∈ pool) l pools := by
  induction pools generalizing l with
  | nil => simp [pyProduct]
  | cons pool rest ih =>
    simp only [pyProduct, List.mem_flatMap, List.mem_map]
    constructor
    · rintro ⟨x, hx, t, ht, rfl⟩
      exact List.Forall₂.cons hx (ih.1 ht)
    · intro h
      cases h with
      | cons hx ht => exact ⟨_, hx, _, ih.2 ht, rfl⟩

theorem nodup_pyProduct {pools : List (List α)} (h : ∀ p ∈ pools, p.Nodup) : (pyProduct pools).Nodup := by
  induction pools with
  | nil => simp [pyProduct]
  | cons pool rest ih =>
    have hr := ih fun p hp => h p (List.mem_cons_of_mem _ hp)
    have hp := h pool (by simp)
    rw [pyProduct, List.nodup_flatMap]
    refine ⟨fun x _ => hr.map (List.cons_injective), ?_⟩
    refine hp.imp ?_
    intro x y hxy
    rw [Function.onFun, List.disjoint_left]
    simp only [List.mem_map]
    rintro _ ⟨t, _, rfl⟩ ⟨t', _, h'⟩
    simp at h'
    exact hxy h'.1.symm

theorem length_pyProduct (pools : List (List α)) : (pyProduct pools).length = (pools.map List.length).prod := by
  induction pools with
  | nil => rfl
  | cons pool rest ih => simp [pyProduct, List.length_flatMap, ih]

theorem mem_pyCombinations {l : List α} {k : Nat} {c : List α} :
    c ∈ pyCombinations l k ↔ c.Sublist l ∧ c.length = k := by
  induction l generalizing k c with
  | nil =>
    cases k with
    | zero => simp [pyCombinations]
    | succ k => simp [pyCombinations]; rintro rfl; simp
  | cons x xs ih =>
    cases k with
    | zero =>
      simp only [pyCombinations, List.mem_singleton, List.length_eq_zero_iff]
      constructor
      · rintro rfl; simp
      · exact fun h => h.2
    | succ k =>
      simp only [pyCombinations, List.mem_append, List.mem_map, ih]
      rw [List.sublist_cons_iff]
      constructor
      · rintro (⟨t, ⟨ht, hl⟩, rfl⟩ | ⟨hc, hl⟩)
        · exact ⟨Or.inr ⟨t, rfl, ht⟩, by simp [hl]⟩
        · exact ⟨Or.inl hc, hl⟩
      · rintro ⟨hc | ⟨t, rfl, ht⟩, hl⟩
        · exact Or.inr ⟨hc, hl⟩
        · exact Or.inl ⟨t, ⟨ht, by simpa using hl⟩, rfl⟩

theorem nodup_pyCombinations {l : List α} (h : l.Nodup) (k : Nat) : (pyCombinations l k).Nodup := by
  induction l generalizing k with
  | nil => cases k <;> simp [pyCombinations]
  | cons x xs ih =>
    rw [List.nodup_cons] at h
    cases k with
    | zero => simp [pyCombinations]
    | succ k =>
      rw [pyCombinations, List.nodup_append]
      refine ⟨(ih h.2 k).map List.cons_injective, ih h.2 _, ?_⟩
      intro a ha b hb hab
      subst hab
      simp only [List.mem_map] at ha
      obtain ⟨t, _, rfl⟩ := ha
      have := (mem_pyCombinations.1 hb).1
      exact h.1 (this.subset (by simp))

theorem length_pyCombinations (l : List α) (k : Nat) : (pyCombinations l k).length = l.length.choose k := by
  induction l generalizing k with
  | nil => cases k <;> simp [pyCombinations]
  | cons x xs ih =>
    cases k with
    | zero => simp [pyCombinations]
    | succ k => simp [pyCombinations, ih, Nat.choose_succ_succ]

theorem length_picks (l : List α) : (picks l).length = l.length := by
  induction l with
  | nil => rfl
  | cons x xs ih => simp [picks, ih]

theorem perm_of_mem_picks {l : List α} {p : α × List α} (h : p ∈ picks l) : (p.1 :: p.2).Perm l := by
  induction l generalizing p with
  | nil => simp [picks] at h
  | cons x xs ih =>
    simp only [picks, List.mem_cons, List.mem_map] at h
    rcases h with rfl | ⟨q, hq, rfl⟩
    · exact List.Perm.refl _
    · exact (List.Perm.swap _ _ _).trans ((ih hq).cons x)

theorem exists_mem_picks {l : List α} {a : α} (h : a ∈ l) : ∃ r, (a, r) ∈ picks l := by
  induction l with
  | nil => simp at h
  | cons x xs ih =>
    rcases List.mem_cons.1 h with rfl | h
    · exact ⟨xs, by simp [picks]⟩
    · obtain ⟨r, hr⟩ := ih h
      exact ⟨x :: r, by simp only [picks, List.mem_cons, List.mem_map]; exact Or.inr ⟨_, hr, rfl⟩⟩

theorem picks_fst (l : List α) : (picks l).map Prod.fst = l := by
  induction l with
  | nil => rfl
  | cons x xs ih => simp [picks, Function.comp_def, ih]

theorem mem_pyPermutationsAux {n : Nat} {l c : List α} (hn : l.length = n) :
    c ∈ pyPermutationsAux n l ↔ c.Perm l := by
  induction n generalizing l c with
  | zero =>
    have : l = [] := List.length_eq_zero_iff.1 hn
    subst this
    simp [pyPermutationsAux]
  | succ n ih =>
    simp only [pyPermutationsAux, List.mem_flatMap, List.mem_map]
    constructor
    · rintro ⟨p, hp, t, ht, rfl⟩
      have h1 := perm_of_mem_picks hp
      have h2 : p.2.length = n := by have := h1.length_eq; simp at this; omega
      exact ((ih h2).1 ht |>.cons _).trans h1
    · intro h
      cases c with
      | nil => have := h.length_eq; simp at this; omega
      | cons a t =>
        obtain ⟨r, hr⟩ := exists_mem_picks (h.subset (by simp : a ∈ a :: t))
        have h1 := perm_of_mem_picks hr
        have h2 : r.length = n := by have := h1.length_eq; simp at this; omega
        have h3 : t.Perm r := List.Perm.cons_inv (h.trans h1.symm)
        exact ⟨_, hr, t, (ih h2).2 h3, rfl⟩

theorem mem_pyPermutations {l c : List α} : c ∈ pyPermutations l ↔ c.Perm l := mem_pyPermutationsAux rfl

theorem nodup_pyPermutations {l : List α} (h : l.Nodup) : (pyPermutations l).Nodup := by
  have key : ∀ (n : Nat) (l : List α), l.length = n → l.Nodup → (pyPermutationsAux n l).Nodup := by
    intro n
    induction n with
    | zero => intro l _ _; simp [pyPermutationsAux]
    | succ n ih =>
      intro l hn h
      rw [pyPermutationsAux, List.nodup_flatMap]
      refine ⟨fun p hp => ?_, ?_⟩
      · have h1 := perm_of_mem_picks hp
        have h2 : p.2.length = n := by have := h1.length_eq; simp at this; omega
        have h3 : p.2.Nodup := ((h1.nodup_iff).2 h).of_cons
        exact (ih p.2 h2 h3).map List.cons_injective
      · have hfst : ((picks l).map Prod.fst).Nodup := by rw [picks_fst]; exact h
        rw [List.Nodup, List.pairwise_map] at hfst
        refine hfst.imp ?_
        intro x y hxy
        rw [Function.onFun, List.disjoint_left]
        simp only [List.mem_map]
        rintro _ ⟨t, _, rfl⟩ ⟨t', _, h'⟩
        simp at h'
        exact hxy h'.1.symm
  exact key _ l rfl h

theorem length_pyPermutations (l : List α) : (pyPermutations l).length = l.length.factorial := by
  have key : ∀ (n : Nat) (l : List α), l.length = n → (pyPermutationsAux n l).length = n.factorial := by
    intro n
    induction n with
    | zero => intro l _; rfl
    | succ n ih =>
      intro l hn
      rw [pyPermutationsAux, List.length_flatMap]
      have : ∀ p ∈ picks l, ((pyPermutationsAux n p.2).map (p.1 :: ·)).length = n.factorial := by
        intro p hp
        have h1 := perm_of_mem_picks hp
        have h2 : p.2.length = n := by have := h1.length_eq; simp at this; omega
        rw [List.length_map, ih _ h2]
      rw [List.map_congr_left this]
      simp [length_picks, hn, Nat.factorial_succ]
  exact key _ l rfl

end

theorem mem_multisetPermsAux {n : Nat} {l c : List Nat} (hn : l.length = n) :
    c ∈ multisetPermsAux n l ↔ c.Perm l := by
  induction n generalizing l c with
  | zero =>
    have : l = [] := List.length_eq_zero_iff.1 hn
    subst this
    simp [multisetPermsAux]
  | succ n ih =>
    simp only [multisetPermsAux, List.mem_flatMap, List.mem_map, List.mem_insertionSort, List.mem_dedup]
    constructor
    · rintro ⟨v, hv, t, ht, rfl⟩
      have h2 : (l.erase v).length = n := by rw [List.length_erase_of_mem hv]; omega
      exact ((ih h2).1 ht |>.cons _).trans (List.perm_cons_erase hv).symm
    · intro h
      cases c with
      | nil => have := h.length_eq; simp at this; omega
      | cons a t =>
        have ha : a ∈ l := h.subset (by simp)
        have h2 : (l.erase a).length = n := by rw [List.length_erase_of_mem ha]; omega
        exact ⟨a, ha, t, (ih h2).2 (List.Perm.cons_inv (h.trans (List.perm_cons_erase ha))), rfl⟩

theorem mem_multisetPerms {l c : List Nat} : c ∈ multisetPerms l ↔ c.Perm l := mem_multisetPermsAux rfl

theorem nodup_multisetPermsAux (n : Nat) (l : List Nat) : (multisetPermsAux n l).Nodup := by
  induction n generalizing l with
  | zero => simp [multisetPermsAux]
  | succ n ih =>
    rw [multisetPermsAux, List.nodup_flatMap]
    refine ⟨fun v _ => (ih _).map List.cons_injective, ?_⟩
    have : (l.dedup.insertionSort (· ≤ ·)).Nodup :=
      ((List.perm_insertionSort (· ≤ ·) l.dedup).nodup_iff).2 (List.nodup_dedup l)
    refine this.imp ?_
    intro x y hxy
    rw [Function.onFun, List.disjoint_left]
    simp only [List.mem_map]
    rintro _ ⟨t, _, rfl⟩ ⟨t', _, h'⟩
    simp at h'
    exact hxy h'.1.symm

theorem nodup_multisetPerms (l : List Nat) : (multisetPerms l).Nodup := nodup_multisetPermsAux _ l

/-- The number of distinct rearrangements, times the factorials of the multiplicities, is `n!`. -/
theorem length_multisetPermsAux (n : Nat) (l : List Nat) (hn : l.length = n) (s : Finset Nat) (hs : ∀ v ∈ l, v ∈ s) :
    (multisetPermsAux n l).length * ∏ v ∈ s, (l.count v).factorial = n.factorial := by
  induction n generalizing l with
  | zero =>
    have : l = [] := List.length_eq_zero_iff.1 hn
    subst this
    simp [multisetPermsAux]
  | succ n ih =>
    rw [multisetPermsAux, List.length_flatMap]
    have hperm : (l.dedup.insertionSort (· ≤ ·)).Perm l.dedup := List.perm_insertionSort _ _
    rw [(hperm.map _).sum_eq]
    have hsum : ∀ f : Nat → Nat, (l.dedup.map f).sum = ∑ v ∈ l.toFinset, f v := by
      intro f
      rw [← List.sum_toFinset f (List.nodup_dedup l)]
      congr 1
      ext v; simp
    simp only [List.length_map]
    rw [hsum, Finset.sum_mul]
    have step : ∀ v ∈ l.toFinset, (multisetPermsAux n (l.erase v)).length * ∏ w ∈ s, (l.count w).factorial =
        l.count v * n.factorial := by
      intro v hv
      have hvl : v ∈ l := List.mem_toFinset.1 hv
      have hlen : (l.erase v).length = n := by rw [List.length_erase_of_mem hvl]; omega
      have h1 := ih (l.erase v) hlen (fun w hw => hs w (List.mem_of_mem_erase hw))
      have hpos : 0 < l.count v := List.count_pos_iff.2 hvl
      have hprod : ∏ w ∈ s, (l.count w).factorial = l.count v * ∏ w ∈ s, ((l.erase v).count w).factorial := by
        rw [← Finset.mul_prod_erase s _ (hs v hvl), ← Finset.mul_prod_erase s (fun w => ((l.erase v).count w).factorial)
          (hs v hvl), ← mul_assoc]
        congr 1
        · rw [List.count_erase_self]
          exact (Nat.mul_factorial_pred hpos.ne').symm
        · apply Finset.prod_congr rfl
          intro w hw
          rw [List.count_erase_of_ne (Finset.ne_of_mem_erase hw)]
      rw [hprod, mul_left_comm, h1]
    rw [Finset.sum_congr rfl step, ← Finset.sum_mul]
    have : ∑ v ∈ l.toFinset, l.count v = l.length := by
      rw [← Multiset.coe_card, ← Multiset.toFinset_sum_count_eq (l : Multiset Nat)]
      simp
    rw [this, hn, Nat.factorial_succ]

theorem length_multisetPerms (l : List Nat) (s : Finset Nat) (hs : ∀ v ∈ l, v ∈ s) :
    (multisetPerms l).length * ∏ v ∈ s, (l.count v).factorial = l.length.factorial :=
  length_multisetPermsAux _ l rfl s hs

end Dsrg
