import Verif.Model.Elementary
import Verif.Lemmas.Itertools
import Mathlib.Data.List.Sort
import Mathlib.Data.List.NodupEquivFin

/-!
Selections of legs and their grouping by operator.
-/

namespace Dsrg

/-- A sublist of `range n` is a strictly increasing list of numbers below `n`. -/
theorem sublist_range_iff {l : List Nat} {n : Nat} : l.Sublist (List.range n) ↔ l.Pairwise (· < ·) ∧ ∀ x ∈ l, x < n := by
  constructor
  · intro h
    exact ⟨List.pairwise_lt_range.sublist h, fun x hx => List.mem_range.1 (h.subset hx)⟩
  · rintro ⟨h1, h2⟩
    refine List.sublist_of_subperm_of_pairwise (r := (· < ·)) ?_ h1 List.pairwise_lt_range
    exact List.Nodup.subperm (h1.imp fun h => ne_of_lt h) fun x hx => List.mem_range.2 (h2 x hx)

/-- Lay out a list of (operator, legs) groups. -/
def spread (g : List (Nat × List Nat)) : List (Nat × Nat) := g.flatMap fun p => p.2.map fun m => (p.1, m)

/-- The order of legs: by operator, then by position. -/
def LegLt (a b : Nat × Nat) : Prop := a.1 < b.1 ∨ a.1 = b.1 ∧ a.2 < b.2

/-- Groups in increasing order with non-empty increasing legs. -/
structure Grouped (g : List (Nat × List Nat)) : Prop where
  macros : (g.map Prod.fst).Pairwise (· < ·)
  micros : ∀ p ∈ g, p.2 ≠ [] ∧ p.2.Pairwise (· < ·)

theorem Grouped.tail {p : Nat × List Nat} {g : List (Nat × List Nat)} (h : Grouped (p :: g)) : Grouped g :=
  ⟨(List.pairwise_cons.1 h.macros).2, fun q hq => h.micros q (List.mem_cons_of_mem _ hq)⟩

theorem mem_spread {g : List (Nat × List Nat)} {a : Nat × Nat} : a ∈ spread g ↔ ∃ p ∈ g, p.1 = a.1 ∧ a.2 ∈ p.2 := by
  simp only [spread, List.mem_flatMap, List.mem_map]
  constructor
  · rintro ⟨p, hp, m, hm, rfl⟩; exact ⟨p, hp, rfl, hm⟩
  · rintro ⟨p, hp, h1, h2⟩; exact ⟨p, hp, a.2, h2, by rw [h1]⟩

theorem Grouped.sorted {g : List (Nat × List Nat)} (h : Grouped g) : (spread g).Pairwise LegLt := by
  induction g with
  | nil => simp [spread]
  | cons p g ih =>
    have h' := h.tail
    simp only [spread, List.flatMap_cons]
    rw [List.pairwise_append]
    refine ⟨?_, ih h', ?_⟩
    · rw [List.pairwise_map]
      exact (h.micros p (by simp)).2.imp fun hab => Or.inr ⟨rfl, hab⟩
    · intro a ha b hb
      rw [List.mem_map] at ha
      obtain ⟨m, hm, rfl⟩ := ha
      obtain ⟨q, hq, h1, -⟩ := mem_spread.1 hb
      left
      simp only
      rw [← h1]
      have := h.macros
      rw [List.map_cons, List.pairwise_cons] at this
      exact this.1 _ (List.mem_map.2 ⟨q, hq, rfl⟩)

/-- Every sorted selection arises from groups. -/
theorem exists_grouped (r : List (Nat × Nat)) (h : r.Pairwise LegLt) : ∃ g, Grouped g ∧ spread g = r := by
  induction r with
  | nil => exact ⟨[], ⟨by simp, by simp⟩, rfl⟩
  | cons a r ih =>
    rw [List.pairwise_cons] at h
    obtain ⟨g, hg, rfl⟩ := ih h.2
    obtain ⟨i, m⟩ := a
    match g, hg with
    | [], hg => exact ⟨[(i, [m])], ⟨by simp, by simp⟩, by simp [spread]⟩
    | (j, ms) :: g, hg =>
      have hne := (hg.micros (j, ms) (by simp)).1
      obtain ⟨m', ms, rfl⟩ := List.exists_cons_of_ne_nil hne
      have hlt := h.1 (j, m') (by rw [mem_spread]; exact ⟨_, List.mem_cons_self .., rfl, by simp⟩)
      have hmac := hg.macros
      rw [List.map_cons, List.pairwise_cons] at hmac
      rcases hlt with hlt | ⟨hlt, hm⟩
      · simp only at hlt
        refine ⟨(i, [m]) :: (j, m' :: ms) :: g, ⟨?_, ?_⟩, by simp [spread]⟩
        · rw [List.map_cons, List.pairwise_cons]
          refine ⟨?_, hg.macros⟩
          intro x hx
          rw [List.map_cons, List.mem_cons] at hx
          rcases hx with rfl | hx
          · exact hlt
          · exact lt_trans hlt (hmac.1 x hx)
        · intro p hp
          rw [List.mem_cons] at hp
          rcases hp with rfl | hp
          · simp
          · exact hg.micros p hp
      · simp only at hlt hm
        subst hlt
        refine ⟨(i, m :: m' :: ms) :: g, ⟨?_, ?_⟩, by simp [spread]⟩
        · rw [List.map_cons, List.pairwise_cons]; exact hmac
        · intro p hp
          rw [List.mem_cons] at hp
          rcases hp with rfl | hp
          · refine ⟨by simp, ?_⟩
            have hs := (hg.micros (i, m' :: ms) (by simp)).2
            rw [List.pairwise_cons]
            refine ⟨?_, hs⟩
            intro x hx
            rw [List.mem_cons] at hx
            rcases hx with rfl | hx
            · exact hm
            · exact lt_trans hm ((List.pairwise_cons.1 hs).1 x hx)
          · exact hg.micros p (List.mem_cons_of_mem _ hp)

/-- The groups are determined by the selection. -/
theorem spread_injective {g g' : List (Nat × List Nat)} (h : Grouped g) (h' : Grouped g') (he : spread g = spread g') :
    g = g' := by
  induction g generalizing g' with
  | nil =>
    cases g' with
    | nil => rfl
    | cons p g' =>
      exfalso
      have := (h'.micros p (by simp)).1
      obtain ⟨m, ms, hm⟩ := List.exists_cons_of_ne_nil this
      simp [spread, hm] at he
  | cons p g ih =>
    cases g' with
    | nil =>
      exfalso
      have := (h.micros p (by simp)).1
      obtain ⟨m, ms, hm⟩ := List.exists_cons_of_ne_nil this
      simp [spread, hm] at he
    | cons p' g' =>
      obtain ⟨i, ms⟩ := p
      obtain ⟨i', ms'⟩ := p'
      have hi : i = i' := by
        obtain ⟨m, ms1, hm⟩ := List.exists_cons_of_ne_nil (h.micros (i, ms) (by simp)).1
        obtain ⟨m', ms1', hm'⟩ := List.exists_cons_of_ne_nil (h'.micros (i', ms') (by simp)).1
        simp only at hm hm'
        subst hm hm'
        simp [spread] at he
        exact he.1.1
      subst hi
      have hfil : ∀ (ms : List Nat) (g : List (Nat × List Nat)), Grouped ((i, ms) :: g) →
          (spread ((i, ms) :: g)).filter (fun a => decide (a.1 = i)) = ms.map (fun m => (i, m)) ∧
          (spread ((i, ms) :: g)).filter (fun a => ! decide (a.1 = i)) = spread g := by
        intro ms g hg
        have hgt : ∀ a ∈ spread g, ¬ a.1 = i := by
          intro a ha
          obtain ⟨q, hq, h1, -⟩ := mem_spread.1 ha
          have := hg.macros
          rw [List.map_cons, List.pairwise_cons] at this
          have := this.1 q.1 (List.mem_map.2 ⟨q, hq, rfl⟩)
          simp only at this
          omega
        have hs : spread ((i, ms) :: g) = ms.map (fun m => (i, m)) ++ spread g := by simp [spread]
        rw [hs, List.filter_append, List.filter_append]
        constructor
        · rw [List.filter_eq_self.2, List.filter_eq_nil_iff.2, List.append_nil]
          · intro a ha; simpa using hgt a ha
          · intro a ha; obtain ⟨m, _, rfl⟩ := List.mem_map.1 ha; simp
        · rw [List.filter_eq_nil_iff.2, List.filter_eq_self.2, List.nil_append]
          · intro a ha; simpa using hgt a ha
          · intro a ha; obtain ⟨m, _, rfl⟩ := List.mem_map.1 ha; simp
      have h1 := hfil ms g h
      have h2 := hfil ms' g' h'
      rw [he] at h1
      have e1 := h1.1.symm.trans h2.1
      have e2 := h1.2.symm.trans h2.2
      have : ms = ms' := by
        refine List.map_injective_iff.2 ?_ e1
        intro a b hab; simpa using hab
      rw [this, ih h.tail h'.tail e2]

theorem zip_eq_of_maps {α β : Type} (g : List (α × β)) : (g.map Prod.fst).zip (g.map Prod.snd) = g := by
  induction g with
  | nil => rfl
  | cons p g ih => simp [ih]

/-- The selections generated for one distribution of legs. -/
theorem mem_halfRows {sizes legs : List Nat} (hpos : ∀ k ∈ legs, 1 ≤ k) {r : List (Nat × Nat)} :
    r ∈ halfRows sizes legs ↔ ∃ g, Grouped g ∧ spread g = r ∧ g.map (fun p => p.2.length) = legs ∧
      ∀ p ∈ g, p.1 < sizes.length ∧ ∀ m ∈ p.2, m < sizes.getD p.1 0 := by
  unfold halfRows
  simp only [List.mem_flatMap, List.mem_map, List.mem_filter, mem_pyCombinations, mem_pyProduct, sublist_range_iff]
  constructor
  · rintro ⟨macros, ⟨⟨⟨hs, hlt⟩, hlen⟩, hfit⟩, micros, hmic, rfl⟩
    -- pair macros and micros
    have hml : micros.length = macros.length := by
      have := hmic.length_eq; simp at this; omega
    have hf2 : ∀ (k : Nat), k < macros.length → ∀ (a : k < micros.length) (b : k < macros.length) (c : k < legs.length),
        (micros[k].Pairwise (· < ·) ∧ ∀ x ∈ micros[k], x < sizes.getD macros[k] 0) ∧ micros[k].length = legs[k] := by
      intro k hk a b c
      have := List.Forall₂.get hmic (i := k) a (by simp; omega)
      simp only [List.get_eq_getElem, List.getElem_map, List.getElem_zip] at this
      rw [mem_pyCombinations, sublist_range_iff] at this
      exact this
    refine ⟨macros.zip micros, ⟨?_, ?_⟩, rfl, ?_, ?_⟩
    · rw [List.map_fst_zip (by omega)]; exact hs
    · intro p hp
      obtain ⟨k, hk, rfl⟩ := List.getElem_of_mem hp
      simp at hk
      have := hf2 k (by omega) (by omega) (by omega) (by omega)
      simp only [List.getElem_zip]
      refine ⟨?_, this.1.1⟩
      intro hnil
      rw [hnil] at this
      have h1 := hpos legs[k] (List.getElem_mem _)
      simp at this; omega
    · apply List.ext_getElem
      · simp; omega
      · intro k h1 h2
        simp at h1
        simp only [List.getElem_map, List.getElem_zip]
        exact (hf2 k (by omega) (by omega) (by omega) (by omega)).2
    · intro p hp
      obtain ⟨k, hk, rfl⟩ := List.getElem_of_mem hp
      simp at hk
      simp only [List.getElem_zip]
      exact ⟨hlt _ (List.getElem_mem _), (hf2 k (by omega) (by omega) (by omega) (by omega)).1.2⟩
  · rintro ⟨g, hg, rfl, rfl, hb⟩
    refine ⟨g.map Prod.fst, ⟨⟨⟨hg.macros, ?_⟩, by simp⟩, ?_⟩, g.map Prod.snd, ?_, ?_⟩
    · intro x hx
      obtain ⟨p, hp, rfl⟩ := List.mem_map.1 hx
      exact (hb p hp).1
    · rw [Bool.not_eq_true', List.any_eq_false]
      intro q hq
      rw [List.zip_map'] at hq
      obtain ⟨p, hp, rfl⟩ := List.mem_map.1 hq
      simp only [decide_eq_true_eq, not_lt]
      have h1 : p.2.Sublist (List.range (sizes.getD p.1 0)) := sublist_range_iff.2 ⟨(hg.micros p hp).2, (hb p hp).2⟩
      simpa using h1.length_le
    · rw [List.zip_map', List.map_map, List.forall₂_map_left_iff, List.forall₂_map_right_iff, List.forall₂_same]
      intro p hp
      simp only [Function.comp]
      rw [mem_pyCombinations, sublist_range_iff]
      exact ⟨⟨(hg.micros p hp).2, (hb p hp).2⟩, rfl⟩
    · rw [zip_eq_of_maps]; rfl

theorem nodup_halfRows {sizes legs : List Nat} (hpos : ∀ k ∈ legs, 1 ≤ k) : (halfRows sizes legs).Nodup := by
  unfold halfRows
  have key : ∀ macros ∈ (pyCombinations (List.range sizes.length) legs.length).filter (fun macros =>
      ! (macros.zip legs).any fun p => decide (sizes.getD p.1 0 < p.2)), ∀ micros ∈ pyProduct ((macros.zip legs).map
      fun p => pyCombinations (List.range (sizes.getD p.1 0)) p.2), Grouped (macros.zip micros) ∧
      macros.length = micros.length := by
    intro macros hm micros hmic
    have hm' := hm
    rw [List.mem_filter, mem_pyCombinations, sublist_range_iff] at hm
    rw [mem_pyProduct] at hmic
    have hml : micros.length = macros.length := by
      have := hmic.length_eq; simp at this; omega
    refine ⟨⟨?_, ?_⟩, hml.symm⟩
    · rw [List.map_fst_zip (by omega)]; exact hm.1.1.1
    · intro p hp
      obtain ⟨k, hk, rfl⟩ := List.getElem_of_mem hp
      simp at hk
      have := List.Forall₂.get hmic (i := k) (by omega) (by simp; omega)
      simp only [List.get_eq_getElem, List.getElem_map, List.getElem_zip] at this
      rw [mem_pyCombinations, sublist_range_iff] at this
      simp only [List.getElem_zip]
      refine ⟨?_, this.1.1⟩
      intro hnil
      rw [hnil] at this
      have h1 := hpos (legs[k]'(by omega)) (List.getElem_mem _)
      simp at this; omega
  rw [List.nodup_flatMap]
  constructor
  · intro macros hm
    refine List.Nodup.map_on ?_ (nodup_pyProduct ?_)
    · intro a ha b hb hab
      have hA := key macros hm a ha
      have hB := key macros hm b hb
      have := spread_injective hA.1 hB.1 hab
      have h2 := congrArg (List.map Prod.snd) this
      rwa [List.map_snd_zip (by omega), List.map_snd_zip (by omega)] at h2
    · intro pool hpool
      obtain ⟨p, _, rfl⟩ := List.mem_map.1 hpool
      exact nodup_pyCombinations List.nodup_range _
  · refine List.Pairwise.imp_of_mem ?_ ((nodup_pyCombinations List.nodup_range _).filter _)
    intro macros macros' hm hm' hne
    simp only [Function.onFun, List.disjoint_left, List.mem_map]
    rintro r ⟨a, ha, rfl⟩ ⟨b, hb, hab⟩
    have hA := key macros hm a ha
    have hB := key macros' hm' b hb
    have := spread_injective hB.1 hA.1 hab
    have h2 := congrArg (List.map Prod.fst) this
    rw [List.map_fst_zip (by omega), List.map_fst_zip (by omega)] at h2
    exact hne h2.symm

end Dsrg
