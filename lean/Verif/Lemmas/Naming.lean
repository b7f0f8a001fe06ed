import Verif.Lemmas.CanonUnique
import Verif.Lemmas.SympyValue
import Mathlib.GroupTheory.Perm.Support

/-!
The names given to the slots of a product are determined by its labels up to symmetries.
-/

namespace Dsrg

/-! ### Interchanging the two ends of summations -/

/-- The two ends of every summation in `M` interchanged. -/
def swapEnds (M : Finset Nat) (n : Nat) : Nat := if n / 2 ∈ M then (if n % 2 = 0 then n + 1 else n - 1) else n

theorem swapEnds_insert {M : Finset Nat} {i : Nat} (hi : i ∉ M) (n : Nat) :
    swapEnds (insert i M) n = Equiv.swap (2 * i) (2 * i + 1) (swapEnds M n) := by
  unfold swapEnds
  simp only [Equiv.swap_apply_def, Finset.mem_insert]
  by_cases h : n / 2 = i
  · subst h
    rw [if_pos (Or.inl rfl), if_neg hi]
    split_ifs <;> omega
  · by_cases hM : n / 2 ∈ M
    · rw [if_pos (Or.inr hM), if_pos hM]
      split_ifs <;> omega
    · rw [if_neg (by simp [h, hM]), if_neg hM]
      split_ifs <;> omega

theorem reach_swapEnds {dummies : List (Nat × Nat)} {v : List SlotGroup} (M : Finset Nat)
    (hM : ∀ i ∈ M, ∃ d ∈ dummies, d.1 ≤ 2 * i ∧ 2 * i + 1 < d.2) (g : List Nat) (s s' : Nat) :
    Reach dummies v (g ++ [s, s']) (g.map (swapEnds M) ++ [s, s']) := by
  induction M using Finset.induction_on with
  | empty =>
    have : g.map (swapEnds ∅) = g := by
      have : swapEnds ∅ = id := by funext n; simp [swapEnds]
      rw [this, List.map_id]
    rw [this]
  | insert i M hi ih =>
    refine .tail (ih fun j hj => hM j (Finset.mem_insert_of_mem hj)) ?_
    obtain ⟨d, hd, h1, h2⟩ := hM i (Finset.mem_insert_self _ _)
    have := SymStep.ends (v := v) d i (g.map (swapEnds M)) s s' hd h1 h2
    rw [List.map_map] at this
    have e : (Equiv.swap (2 * i) (2 * i + 1)) ∘ swapEnds M = swapEnds (insert i M) := by
      funext n; exact (swapEnds_insert hi n).symm
    rwa [e] at this

/-- Two lists of names of the same summations differ by the ends of summations. -/
theorem reach_of_halves {dummies : List (Nat × Nat)} {v : List SlotGroup} {m : Nat}
    (hd : ∀ i < m, ∃ d ∈ dummies, d.1 ≤ 2 * i ∧ 2 * i + 1 < d.2) {x y : List Nat} (hx : x.Perm (List.range (2 * m))) (hy : y.Perm (List.range (2 * m)))
    (h : x.map (· / 2) = y.map (· / 2)) (s s' : Nat) : Reach dummies v (x ++ [s, s']) (y ++ [s, s']) := by
  have hlen : x.length = y.length := by simpa using congrArg List.length h
  have hh : ∀ k (h1 : k < x.length) (h2 : k < y.length), x[k] / 2 = y[k] / 2 := by
    intro k h1 h2
    have := List.getElem_of_eq h (i := k) (by simpa using h1)
    simpa using this
  have hnx : x.Nodup := hx.nodup_iff.2 List.nodup_range
  have hny : y.Nodup := hy.nodup_iff.2 List.nodup_range
  let M : Finset Nat := (Finset.range m).filter fun i => ∃ k, ∃ (h1 : k < x.length) (h2 : k < y.length), x[k] = 2 * i ∧ y[k] = 2 * i + 1
  have key : x.map (swapEnds M) = y := by
    refine List.ext_getElem (by simpa using hlen) fun k h1 h2 => ?_
    rw [List.getElem_map]
    have h1' : k < x.length := by simpa using h1
    have e := hh k h1' h2
    have hxm : x[k] < 2 * m := by simpa using hx.mem_iff.1 (List.getElem_mem h1')
    have hmem : x[k] / 2 ∈ M ↔ ∃ j, ∃ (h1 : j < x.length) (h2 : j < y.length), x[j] = 2 * (x[k] / 2) ∧ y[j] = 2 * (x[k] / 2) + 1 := by
      simp only [M, Finset.mem_filter, Finset.mem_range]
      exact ⟨fun h => h.2, fun h => ⟨by omega, h⟩⟩
    unfold swapEnds
    rcases Nat.mod_two_eq_zero_or_one x[k] with hx2 | hx2 <;> rcases Nat.mod_two_eq_zero_or_one y[k] with hy2 | hy2
    · rw [if_neg]
      · omega
      · rw [hmem]
        rintro ⟨j, j1, j2, j3, j4⟩
        have : j = k := (List.Nodup.getElem_inj_iff hnx (hi := j1) (hj := h1')).1 (by omega)
        subst this; omega
    · rw [if_pos, if_pos hx2]
      · omega
      · rw [hmem]; exact ⟨k, h1', h2, by omega, by omega⟩
    · rw [if_pos, if_neg (by omega)]
      · omega
      · rw [hmem]
        have : 2 * (x[k] / 2) ∈ x := hx.mem_iff.2 (by simp; omega)
        obtain ⟨j, j1, j2⟩ := List.mem_iff_getElem.1 this
        refine ⟨j, j1, by omega, j2, ?_⟩
        have e' := hh j j1 (by omega)
        have hne : y[j]'(by omega) ≠ y[k] := by
          intro hc
          have : j = k := (List.Nodup.getElem_inj_iff hny (hi := by omega) (hj := h2)).1 hc
          subst this; omega
        omega
    · rw [if_neg]
      · omega
      · rw [hmem]
        rintro ⟨j, j1, j2, j3, j4⟩
        have : j = k := (List.Nodup.getElem_inj_iff hny (hi := j2) (hj := h2)).1 (by omega)
        subst this; omega
  have := reach_swapEnds (v := v) M (fun i hi => hd i (by simpa using (Finset.mem_filter.1 hi).1)) x s s'
  rwa [key] at this

/-! ### Renaming summations -/

/-- The summations renamed. -/
def renameAll {m : Nat} (π : Equiv.Perm (Fin m)) (n : Nat) : Nat := if h : n / 2 < m then 2 * (π ⟨n / 2, h⟩ : Nat) + n % 2 else n

theorem renameAll_half {m : Nat} (π : Equiv.Perm (Fin m)) {n : Nat} (h : n / 2 < m) : renameAll π n / 2 = π ⟨n / 2, h⟩ := by
  rw [renameAll, dif_pos h]; omega

theorem renameAll_mul_swap {m : Nat} (τ : Equiv.Perm (Fin m)) (a b : Fin m) (n : Nat) (hn : n < 2 * m) :
    renameAll (Equiv.swap a b * τ) n = Equiv.swap (2 * (a : Nat)) (2 * b) (Equiv.swap (2 * (a : Nat) + 1) (2 * b + 1) (renameAll τ n)) := by
  have h : n / 2 < m := by omega
  have h' : renameAll τ n / 2 = (τ ⟨n / 2, h⟩ : Nat) := renameAll_half τ h
  have h2 : renameAll τ n % 2 = n % 2 := by rw [renameAll, dif_pos h]; omega
  rw [renameAll, dif_pos h]
  simp only [Equiv.Perm.coe_mul, Function.comp]
  generalize renameAll τ n = r at h' h2
  generalize τ ⟨n / 2, h⟩ = t at h'
  simp only [Equiv.swap_apply_def, Fin.ext_iff]
  split_ifs <;> omega

theorem reach_renameAll {dummies : List (Nat × Nat)} {v : List SlotGroup} {m : Nat} {C : Type} (color : Fin m → C)
    (hd : ∀ i j : Fin m, color i = color j → ∃ d ∈ dummies, d.1 ≤ 2 * (i : Nat) ∧ 2 * (i : Nat) + 1 < d.2 ∧ d.1 ≤ 2 * (j : Nat) ∧ 2 * (j : Nat) + 1 < d.2) :
    ∀ (k : Nat) (π : Equiv.Perm (Fin m)), π.support.card = k → (∀ i, color (π i) = color i) → ∀ g : List Nat, (∀ n ∈ g, n < 2 * m) → ∀ s s',
      Reach dummies v (g ++ [s, s']) (g.map (renameAll π) ++ [s, s']) := by
  intro k
  induction k using Nat.strong_induction_on with
  | _ k ih =>
    intro π hk hπ g hg s s'
    by_cases h1 : π = 1
    · subst h1
      have : g.map (renameAll (1 : Equiv.Perm (Fin m))) = g := by
        conv_rhs => rw [← List.map_id g]
        refine List.map_congr_left fun n hn => ?_
        rw [renameAll, dif_pos (by have := hg n hn; omega)]
        simp; omega
      rw [this]
    · obtain ⟨a, ha⟩ : ∃ a, π a ≠ a := by
        by_contra hc
        push Not at hc
        exact h1 (Equiv.ext hc)
      set τ := Equiv.swap a (π a) * π with hτ
      have hlt : τ.support.card < k := by
        rw [← hk]; exact Equiv.Perm.card_support_swap_mul ha
      have hτc : ∀ i, color (τ i) = color i := by
        intro i
        rw [← hπ i]
        simp only [hτ, Equiv.Perm.coe_mul, Function.comp, Equiv.swap_apply_def]
        split_ifs with e1 e2
        · rw [e1, hπ]
        · rw [e2, hπ]
        · rfl
      refine .tail (ih _ hlt τ rfl hτc g hg s s') ?_
      obtain ⟨d, hd1, d1, d2, d3, d4⟩ := hd a (π a) (hπ a).symm
      have := SymStep.rename (v := v) d a (π a) (g.map (renameAll τ)) s s' hd1 d1 d2 d3 d4
      rw [List.map_map] at this
      have e : g.map (renameAll π) = g.map ((fun n => Equiv.swap (2 * (a : Nat)) (2 * (π a : Nat)) (Equiv.swap (2 * (a : Nat) + 1) (2 * (π a : Nat) + 1) n)) ∘ renameAll τ) := by
        refine List.map_congr_left fun n hn => ?_
        rw [Function.comp, ← renameAll_mul_swap τ a (π a) n (hg n hn), hτ, ← mul_assoc, Equiv.swap_mul_self, one_mul]
      rw [e]; exact this

/-! ### Namings -/

/-- The list `x` names the slots with the labels `L`: every label gets one of the summations `D` of its space. -/
def Naming (D : List Index) (L : List Index) (x : List Nat) : Prop :=
  x.Perm (List.range (2 * D.length)) ∧ ∃ f : Index → Index, x.map (look D) = L.map f ∧ (∀ i ∈ L, ∀ j ∈ L, f i = f j → i = j) ∧
    ∀ i ∈ L, (f i).space = i.space

/-- Summations of one space are interchangeable. -/
def Ranges (D : List Index) (dummies : List (Nat × Nat)) : Prop :=
  ∀ i j (hi : i < D.length) (hj : j < D.length), D[i].space = D[j].space →
    ∃ d ∈ dummies, d.1 ≤ 2 * i ∧ 2 * i + 1 < d.2 ∧ d.1 ≤ 2 * j ∧ 2 * j + 1 < d.2

theorem Naming.length {D L : List Index} {x : List Nat} (h : Naming D L x) : x.length = L.length := by
  obtain ⟨-, f, hf, -⟩ := h
  simpa using congrArg List.length hf

/-- Two namings of the same labels differ by symmetries. -/
theorem Naming.reach {D L : List Index} (hD : D.Nodup) {dummies : List (Nat × Nat)} (hr : Ranges D dummies) {v : List SlotGroup} {x y : List Nat}
    (hx : Naming D L x) (hy : Naming D L y) (s s' : Nat) : Reach dummies v (x ++ [s, s']) (y ++ [s, s']) := by
  have hxl := hx.length
  have hyl := hy.length
  obtain ⟨px, f, hf, fi, fs⟩ := hx
  obtain ⟨py, g, hg, gi, gs⟩ := hy
  have hxm : ∀ n ∈ x, n < 2 * D.length := fun n hn => by simpa using px.mem_iff.1 hn
  have hym : ∀ n ∈ y, n < 2 * D.length := fun n hn => by simpa using py.mem_iff.1 hn
  have hlx : ∀ k (h1 : k < x.length) (h2 : k < L.length), D[x[k] / 2]'(by have := hxm _ (List.getElem_mem h1); omega) = f L[k] := by
    intro k h1 h2
    have := List.getElem_of_eq hf (i := k) (by simpa using h1)
    rw [List.getElem_map, List.getElem_map, look_of_lt (by have := hxm _ (List.getElem_mem h1); omega)] at this
    exact this
  have hly : ∀ k (h1 : k < y.length) (h2 : k < L.length), D[y[k] / 2]'(by have := hym _ (List.getElem_mem h1); omega) = g L[k] := by
    intro k h1 h2
    have := List.getElem_of_eq hg (i := k) (by simpa using h1)
    rw [List.getElem_map, List.getElem_map, look_of_lt (by have := hym _ (List.getElem_mem h1); omega)] at this
    exact this
  -- the renaming
  have hex : ∀ a : Fin D.length, ∃ b : Fin D.length, ∀ i ∈ L, f i = D[a] → g i = D[b] := by
    intro a
    have : 2 * (a : Nat) ∈ x := px.mem_iff.2 (by have := a.2; simp)
    obtain ⟨k, k1, k2⟩ := List.mem_iff_getElem.1 this
    refine ⟨⟨y[k]'(by omega) / 2, by have := hym _ (List.getElem_mem (show k < y.length by omega)); omega⟩, ?_⟩
    intro i hi e
    have h1 := hlx k k1 (by omega)
    have h2 : D[x[k] / 2]'(by have := hxm _ (List.getElem_mem k1); omega) = D[a] := by congr 1; omega
    have : i = L[k] := fi i hi _ (List.getElem_mem _) (by rw [e, ← h1, h2])
    rw [this]
    exact (hly k (by omega) (by omega)).symm
  choose p hp using hex
  have hsurj : ∀ a : Fin D.length, ∃ i ∈ L, f i = D[a] := by
    intro a
    have : 2 * (a : Nat) ∈ x := px.mem_iff.2 (by have := a.2; simp)
    obtain ⟨k, k1, k2⟩ := List.mem_iff_getElem.1 this
    refine ⟨L[k]'(by omega), List.getElem_mem _, ?_⟩
    rw [← hlx k k1 (by omega)]
    congr 1; omega
  have hinj : Function.Injective p := by
    intro a b hab
    obtain ⟨i, hi, ei⟩ := hsurj a
    obtain ⟨j, hj, ej⟩ := hsurj b
    have h1 := hp a i hi ei
    have h2 := hp b j hj ej
    have : i = j := gi i hi j hj (by rw [h1, h2, hab])
    subst this
    rw [ei] at ej
    exact Fin.ext ((List.Nodup.getElem_inj_iff hD (hi := a.2) (hj := b.2)).1 ej)
  let π : Equiv.Perm (Fin D.length) := Equiv.ofBijective p (Finite.injective_iff_bijective.1 hinj)
  have hπ : ∀ a, π a = p a := fun a => rfl
  have hcol : ∀ a : Fin D.length, (D[π a]).space = (D[a]).space := by
    intro a
    obtain ⟨i, hi, ei⟩ := hsurj a
    have e1 : D[π a] = g i := (hp a i hi ei).symm
    rw [e1, ← ei, gs i hi, fs i hi]
  have h1 := reach_renameAll (dummies := dummies) (v := v) (fun a : Fin D.length => (D[a]).space) (fun i j h => hr i j i.2 j.2 h) _ π rfl hcol x hxm s s'
  refine h1.trans (reach_of_halves (m := D.length) (fun i hi => ?_) ?_ py ?_ s s')
  · obtain ⟨d, h1, h2, h3, -⟩ := hr i i hi hi rfl
    exact ⟨d, h1, h2, h3⟩
  · have hn : (x.map (renameAll π)).Nodup := by
      refine List.Nodup.map_on ?_ (px.nodup_iff.2 List.nodup_range)
      intro a ha b hb e
      have ha' := hxm a ha
      have hb' := hxm b hb
      rw [renameAll, renameAll, dif_pos (by omega), dif_pos (by omega)] at e
      have e1 : π ⟨a / 2, by omega⟩ = π ⟨b / 2, by omega⟩ := Fin.ext (by omega)
      have e2 := Fin.mk.inj (π.injective e1)
      omega
    refine List.Subperm.perm_of_length_le (hn.subperm ?_) (by simp [px.length_eq])
    intro a ha
    obtain ⟨n, hn, rfl⟩ := List.mem_map.1 ha
    have := hxm n hn
    rw [renameAll, dif_pos (by omega), List.mem_range]
    have := (π ⟨n / 2, by omega⟩).2
    omega
  · refine List.ext_getElem (by simp; omega) fun k k1 k2 => ?_
    simp only [List.getElem_map]
    have kx : k < x.length := by simpa using k1
    have ky : k < y.length := by simpa using k2
    have hlt := hxm _ (List.getElem_mem kx)
    rw [renameAll_half π (by omega : x[k] / 2 < D.length), hπ]
    have h3 := hp ⟨x[k] / 2, by omega⟩ (L[k]'(by omega)) (List.getElem_mem _) (hlx k kx (by omega)).symm
    rw [← hly k ky (by omega)] at h3
    exact ((List.Nodup.getElem_inj_iff hD).1 h3).symm

end Dsrg
