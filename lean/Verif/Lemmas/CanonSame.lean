import Verif.Lemmas.CanonMain

/-!
`canonicalize_sympy` gives the same term for products that are the same up to notation.
-/

namespace Dsrg

/-- `canonicalize_sympy` after `simplify`. -/
def sympyTail (canon : List Nat → List (Nat × Nat) → List SlotGroup → Option (List Nat)) (hermitian : Bool) (s : Term) : Except PyErr Term :=
  if s.isVoid then s.void
  else do
    let dummy := sortedDummies s.minimalIndices
    let names ← slotNames (dictFind s.minimalIndices) (fun m => 2 * dummy.idxOf m) (slotLabels s.tensors s.sqOp)
    let g := names ++ [names.length, names.length + 1]
    let v ← bsgsList s.tensors s.sqOp hermitian
    if g.Perm (List.range g.length) then
    match canon g (dummyRanges 0 (spaceGroups dummy)) v with
    | none => .error .typeError
    | some gc => do
      let op ← rebuildOp dummy s.sqOp gc
      let ts ← rebuildTensors dummy s.tensors (gc.drop s.sqOp.size)
      let sign : ℚ := if g.getLastD 0 ≠ gc.getLastD 0 then -1 else 1
      Term.make ts op (sign * s.coeff)
    else .error .valueError

theorem canonicalizeSympy_eq (canon : List Nat → List (Nat × Nat) → List SlotGroup → Option (List Nat)) (ord : SetOrder) (t : Term)
    (core removeActive hermitian : Bool) :
    t.canonicalizeSympy canon ord core removeActive hermitian = t.simplify ord core removeActive >>= sympyTail canon hermitian := rfl

theorem getLastD_two (l : List Nat) (a b d : Nat) : (l ++ [a, b]).getLastD d = b := by simp [List.getLastD_eq_getLast?]

theorem sympyTail_same {canon : List Nat → List (Nat × Nat) → List SlotGroup → Option (List Nat)} (hcanon : CanonContract canon)
    (huniq : CanonUnique canon) {hermitian : Bool} {s s' : Term} (hs : labelsOf s.tensors s.sqOp ⊆ s.indicesSet)
    (hs' : labelsOf s'.tensors s'.sqOp ⊆ s'.indicesSet) (hsame : SameUpToNotation hermitian s.coeff s.tensors s.sqOp s'.coeff s'.tensors s'.sqOp)
    (hanti : s.sqOp.upper.ty.isAntisym = true) (hty : ∀ x ∈ s.tensors, x.upper.ty = s.sqOp.upper.ty)
    (hopbal : s.sqOp.upper.list.length = s.sqOp.lower.list.length) (hbal : ∀ x ∈ s.tensors, x.upper.list.length = x.lower.list.length)
    (hkind : ∀ x ∈ s.tensors, ∀ y ∈ s.tensors, x.name = y.name → x.cls = y.cls)
    (hsort : KindSorted (s.tensors.map Tensor.kindKey)) (hsort' : KindSorted (s'.tensors.map Tensor.kindKey))
    (htwo : ∀ i ∈ slotLabels s.tensors s.sqOp, (slotLabels s.tensors s.sqOp).count i = 2) :
    sympyTail canon hermitian s' = sympyTail canon hermitian s := by
  obtain ⟨hforms, hopf, habs⟩ := hsame.forms hbal
  have hvoid : s'.isVoid = s.isVoid := by unfold Term.isVoid; rw [habs]
  have hfe := forms_eq_of_sorted hforms hty hbal hkind hsort hsort'
  have hΦ := goodForms_of_sorted hanti hty hbal hkind hsort
  unfold sympyTail
  rw [hvoid]
  by_cases hv0 : s.isVoid = true
  · rw [if_pos hv0, if_pos hv0]
    unfold Term.void IndicesPair.void
    have := hopf
    simp only [SqOp.form, Prod.mk.injEq] at this
    rw [this.1]
  rw [if_neg hv0, if_neg hv0]
  have hbs : bsgsList s'.tensors s'.sqOp hermitian = bsgsList s.tensors s.sqOp hermitian := bsgsList_congr hfe hopf hermitian
  obtain ⟨names, hnames, hnaming⟩ := names_naming hs htwo
  have hD := (sortedDummies_spec hs).1
  cases hv : bsgsList s.tensors s.sqOp hermitian with
  | error e =>
    obtain ⟨next', hm', hkeys'⟩ := minimalIndices_spec s' hs'
    obtain ⟨names', hnames'⟩ := slotNames_total (slotLabels s'.tensors s'.sqOp) (fun m => 2 * (sortedDummies s'.minimalIndices).idxOf m)
      fun i hi => ⟨_, (dictFind_ok hm'.keys (by rw [hkeys', mem_labelsOf]; exact (slotLabels_perm _ _).mem_iff.1 hi)).1⟩
    simp only []
    rw [bind_ok_of hnames, bind_ok_of hnames', hbs, hv]
    rfl
  | ok v =>
  obtain ⟨flip, hc, hled⟩ := hsame.ledTo (D := sortedDummies s.minimalIndices) (dummies := dummyRanges 0 (spaceGroups (sortedDummies s.minimalIndices)))
    hΦ hv rfl hopbal
  obtain ⟨x', hx', hreach⟩ := hled s'.tensors (.refl _) hfe names hnaming
  obtain ⟨names', hnames', hnaming'⟩ := names_naming hs' (hx'.two hD)
  have hDD : sortedDummies s'.minimalIndices = sortedDummies s.minimalIndices := dummies_eq hs hs' hx' hnaming'
  have hproper := bsgsList_proper hv hanti (fun x hx => by rw [hty x hx]; exact hanti) hopbal
  rw [hDD] at hnaming' hnames'
  have hlen : names'.length = names.length := by rw [hnaming'.1.length_eq, hnaming.1.length_eq]
  have hR : ∀ a b, Reach (dummyRanges 0 (spaceGroups (sortedDummies s.minimalIndices))) v (names ++ [a, b]) (names' ++ if flip then [b, a] else [a, b]) := by
    intro a b
    refine (hreach a b).trans ?_
    have := fun a b => hx'.reach hD (ranges_of_sorted (sorted_sortedDummies s)) (v := v) hnaming' a b
    cases flip
    · exact this a b
    · exact this b a
  have hperm : ∀ x : List Nat, x.Perm (List.range (2 * (sortedDummies s.minimalIndices).length)) →
      (x ++ [x.length, x.length + 1]).Perm (List.range (x ++ [x.length, x.length + 1]).length) := by
    intro x hx
    rw [List.length_append]
    have hl : x.length = 2 * (sortedDummies s.minimalIndices).length := by rw [hx.length_eq, List.length_range]
    rw [show x.length + [x.length, x.length + 1].length = x.length + 1 + 1 by simp, List.range_succ, List.range_succ, List.append_assoc]
    exact (hl ▸ hx).append_right _
  have hp := hperm names hnaming.1
  have hp' := hperm names' hnaming'.1
  have hN : names.length = s.sqOp.size + slotCount s.tensors := by rw [hnaming.length, slotLabels_length]
  simp only [hDD]
  rw [bind_ok_of hnames, bind_ok_of hnames', hbs, hv]
  simp only [bind_ok_of rfl]
  rw [if_pos hp, if_pos hp']
  set dums := dummyRanges 0 (spaceGroups (sortedDummies s.minimalIndices)) with hdums
  set D := sortedDummies s.minimalIndices with hDdef
  have hszop : IndicesPair.size s'.sqOp = IndicesPair.size s.sqOp := by
    simp only [SqOp.form, Prod.mk.injEq] at hopf
    exact congrArg₂ (· + ·) hopf.2.2.1 hopf.2.2.2
  cases flip with
  | false =>
    have h1 : canon (names' ++ [names'.length, names'.length + 1]) dums v = canon (names ++ [names.length, names.length + 1]) dums v := by
      have := hR names.length (names.length + 1)
      rw [hlen]
      exact huniq.same _ _ _ _ hproper hp this
    rw [h1]
    cases canon (names ++ [names.length, names.length + 1]) dums v with
    | none => rfl
    | some gc =>
      simp only []
      rw [rebuildOp_congr hopf, hszop, rebuildTensors_congr hfe, getLastD_two, getLastD_two, hlen, hc]
      simp
  | true =>
    have h1 : canon (names' ++ [names'.length, names'.length + 1]) dums v = (canon (names ++ [names.length, names.length + 1]) dums v).map flipSign := by
      have h2 : Reach dums v (names ++ [names.length, names.length + 1]) (names' ++ [names'.length + 1, names'.length]) := by
        have := hR names.length (names.length + 1)
        rw [hlen]; exact this
      have h3 := huniq.same _ _ _ _ hproper hp h2
      rw [← flipSign_append] at h3
      have h4 := huniq.negative _ dums v hproper hp'
      rw [h4] at h3
      rw [← h3, Option.map_map]
      have : flipSign ∘ flipSign = id := by funext l; exact flipSign_flipSign l
      rw [this]; simp
    rw [h1]
    cases hg : canon (names ++ [names.length, names.length + 1]) dums v with
    | none => rfl
    | some gc =>
      obtain ⟨y, hyl, hy⟩ := reach_shape hproper (hcanon.reach _ _ _ _ hg)
      have hcons : ∀ a b : Nat, rebuildOp D s.sqOp (y ++ [a, b]) = rebuildOp D s.sqOp y := by
        intro a b
        refine take_congr_rebuildOp ?_
        rw [List.take_append_of_le_length (by omega)]
      have hconsT : ∀ a b : Nat, rebuildTensors D s.tensors ((y ++ [a, b]).drop s.sqOp.size) = rebuildTensors D s.tensors (y.drop s.sqOp.size) := by
        intro a b
        refine take_congr_rebuildTensors ?_
        rw [List.drop_append_of_le_length (by omega), List.take_append_of_le_length (by simp; omega)]
      rcases hy with rfl | rfl
      · simp only [Option.map_some]
        rw [flipSign_append, rebuildOp_congr hopf, hszop, rebuildTensors_congr hfe, hcons, hcons, hconsT, hconsT]
        simp only [getLastD_two, hlen, hc]
        simp
      · simp only [Option.map_some]
        rw [flipSign_append, rebuildOp_congr hopf, hszop, rebuildTensors_congr hfe, hcons, hcons, hconsT, hconsT]
        simp only [getLastD_two, hlen, hc]
        simp

end Dsrg
