import Verif.Spec.ForteCode
import Verif.Lemmas.AmbitSym
import Verif.Lemmas.Buckets
import Verif.Props.Ambit

/-!
The effect of the code of a bucket.
-/

namespace Dsrg

/-! ### Which terms need the intermediate array -/

theorem prod_factorial_lt {l : List Nat} (h : ∀ n ∈ l, n ≠ 0) (h2 : 1 < l.length) :
    (l.map Nat.factorial).prod < l.sum.factorial := by
  have hle : ∀ l : List Nat, (l.map Nat.factorial).prod ≤ l.sum.factorial := by
    intro l
    induction l with
    | nil => simp
    | cons n l ih =>
      simp only [List.map_cons, List.prod_cons, List.sum_cons]
      calc n.factorial * (l.map Nat.factorial).prod ≤ n.factorial * l.sum.factorial := Nat.mul_le_mul_left _ ih
        _ ≤ (n + l.sum).factorial := Nat.le_of_dvd (Nat.factorial_pos _) (Nat.factorial_mul_factorial_dvd_factorial_add _ _)
  match l, h, h2 with
  | a :: b :: l, h, _ =>
    have ha := h a (by simp)
    have hb := h b (by simp)
    simp only [List.map_cons, List.prod_cons, List.sum_cons]
    have h1 : b.factorial * (l.map Nat.factorial).prod ≤ (b + l.sum).factorial := by
      have := hle (b :: l)
      simpa using this
    calc a.factorial * (b.factorial * (l.map Nat.factorial).prod) ≤ a.factorial * (b + l.sum).factorial := Nat.mul_le_mul_left _ h1
      _ < (a + (b + l.sum)).factorial := by
        obtain ⟨k, hk⟩ : ∃ k, b + l.sum = k + 1 := ⟨b + l.sum - 1, by omega⟩
        rw [hk, ← Nat.add_assoc, Nat.factorial_succ k, Nat.factorial_succ (a + k)]
        have h3 : a.factorial * k.factorial ≤ (a + k).factorial :=
          Nat.le_of_dvd (Nat.factorial_pos _) (Nat.factorial_mul_factorial_dvd_factorial_add _ _)
        calc a.factorial * ((k + 1) * k.factorial) = (k + 1) * (a.factorial * k.factorial) := by ring
          _ ≤ (k + 1) * (a + k).factorial := Nat.mul_le_mul_left _ h3
          _ < (a + k + 1) * (a + k).factorial := Nat.mul_lt_mul_of_pos_right (by omega) (Nat.factorial_pos _)

theorem existPermuteFormat_eq (x : Indices) (ha : x.ty.isAntisym = true) (part : List (List Index)) (hp : part.flatten.Perm x.list)
    (hne : x.list ≠ [] → ∀ b ∈ part, b ≠ []) {n : Nat} (hn : x.nMultisetPermutation part = .ok n) :
    x.existPermuteFormat part = .ok (decide (n ≠ 1)) := by
  obtain ⟨e1, e2⟩ := nMultiset_eq x ha part hp
  rw [e1] at hn
  injection hn with hn
  have hv : x.isValidPartition part = .ok () := by
    unfold Indices.nMultisetPermutation at e1
    cases hv : x.isValidPartition part with
    | ok v => rfl
    | error e => rw [hv] at e1; cases e1
  unfold Indices.existPermuteFormat
  simp only [hv, ha, if_true, bind, Except.bind, pure, Except.pure]
  rw [hn] at e2
  by_cases h0 : x.size = 0
  · rw [if_pos h0]
    rw [h0, Nat.factorial_zero] at e2
    have : n = 1 := Nat.eq_one_of_mul_eq_one_right e2
    simp [this]
  · rw [if_neg h0]
    have hl : x.list ≠ [] := fun h => h0 (by unfold Indices.size; rw [h]; rfl)
    congr 1
    have hsum : (part.map List.length).sum = x.size := by
      rw [← List.length_flatten, hp.length_eq]; rfl
    by_cases h1 : 1 < part.length
    · have hlt := prod_factorial_lt (l := part.map List.length) (by
        intro k hk
        obtain ⟨b, hb, rfl⟩ := List.mem_map.1 hk
        simpa using hne hl b hb) (by simpa using h1)
      rw [hsum, List.map_map] at hlt
      have : n ≠ 1 := by
        rintro rfl
        rw [one_mul] at e2
        exact absurd e2 (ne_of_lt hlt)
      simp [this, h1]
    · have : n = 1 := by
        match part, hsum, h1 with
        | [], hsum, _ => exact absurd hsum.symm h0
        | [b], hsum, _ =>
          simp only [List.map_cons, List.map_nil, List.sum_cons, List.sum_nil, add_zero] at hsum
          simp only [List.map_cons, List.map_nil, List.prod_cons, List.prod_nil, mul_one, hsum] at e2
          exact Nat.eq_of_mul_eq_mul_right (Nat.factorial_pos _) (by rw [e2, one_mul])
        | _ :: _ :: _, _, h1 => simp at h1
      simp [this, h1]

theorem existPermuteFormat_false {x : Indices} (ha : x.ty.isAntisym = true) {part : List (List Index)} (h : x.existPermuteFormat part = .ok false)
    (h0 : x.size ≠ 0) : part.length ≤ 1 := by
  unfold Indices.existPermuteFormat at h
  cases hv : x.isValidPartition part with
  | error e => rw [hv] at h; cases h
  | ok v =>
    rw [hv] at h
    simp only [ha, if_true, bind, Except.bind, pure, Except.pure, if_neg h0] at h
    injection h with h
    simp only [decide_eq_false_iff_not] at h
    omega

theorem permPartAtomic_nil (sets : List (List Index)) : permPartAtomic [] sets = [[]] := rfl

/-- The rows of `permute_indices`. -/
def Term.rows (t : Term) : List (Int × List Index × List Index) :=
  match t.sqOp.permuteIndices t.permPartitionOpen.1 t.permPartitionOpen.2 false with
  | .ok r => r
  | .error _ => []

/-- The numbers of arrangements of the two sides. -/
def Term.nRows (t : Term) : Nat × Nat :=
  ((multisetPerms (blockWord t.permPartitionOpen.1)).length, (multisetPerms (blockWord t.permPartitionOpen.2)).length)

/-- The printed coefficient. -/
def Term.printed (t : Term) : ℚ :=
  t.coeff * ((t.sqOp.upper.list.length.factorial * t.sqOp.lower.list.length.factorial : ℕ) : ℚ) / ((t.nRows.1 * t.nRows.2 : ℕ) : ℚ)

/-- What is known about a printable term. -/
structure Shape (t : Term) : Prop where
  tensors : ∀ x ∈ t.tensors, x.Constructed
  nodup : (t.sqOp.lower.list ++ t.sqOp.upper.list).Nodup
  size : t.sqOp.upper.list.length = t.sqOp.lower.list.length
  upper : SplitsOpen (t.tensors.map fun x => x.pair.indices) t.sqOp.upper.list t.permPartitionOpen.1
  lower : SplitsOpen (t.tensors.map fun x => x.pair.indices) t.sqOp.lower.list t.permPartitionOpen.2
  key : t.bucketKey = .ok ((openRef t.sqOp).map Index.space,
    (if t.nRows.1 = 1 then [] else [t.permPartitionOpen.1]) ++ (if t.nRows.2 = 1 then [] else [t.permPartitionOpen.2]))
  rows : t.nRows ≠ (1, 1) → ∃ wa wc, t.rows = ((wa.map fun w => (relSign t.sqOp.lower.list w, w)).flatMap fun a =>
      (wc.map fun w => (relSign t.sqOp.upper.list w, w)).map fun b => (a.1 * b.1, a.2, b.2)) ∧
    SideRows t.sqOp.lower.list t.permPartitionOpen.2 wa t.nRows.2 ∧ SideRows t.sqOp.upper.list t.permPartitionOpen.1 wc t.nRows.1
  one : t.nRows = (1, 1) → SideRows t.sqOp.lower.list t.permPartitionOpen.2 [t.sqOp.lower.list] 1 ∧
    SideRows t.sqOp.upper.list t.permPartitionOpen.1 [t.sqOp.upper.list] 1
  oneUpper : t.nRows.1 = 1 → t.permPartitionOpen.1.length ≤ 1
  oneLower : t.nRows.2 = 1 → t.permPartitionOpen.2.length ≤ 1
  code : ∀ name ignore init, t.ambit name ignore init true = .ok (
    if t.nRows = (1, 1) then [.update ⟨targetName name t.sqOp, openRef t.sqOp⟩ true t.printed (t.tensors.map Tensor.arrayRef)]
    else (if init then [.build ((openRef t.sqOp).map Index.space)] else []) ++
      [.update ⟨tempName, openRef t.sqOp⟩ true t.printed (t.tensors.map Tensor.arrayRef)] ++
      (if ignore then [] else t.rows.map fun r =>
        .update ⟨targetName name t.sqOp, r.2.1 ++ r.2.2⟩ (decide (r.1 = 1)) 1 [⟨tempName, openRef t.sqOp⟩]))

theorem Printable.shape {t : Term} (h : Printable t) : Shape t := by
  obtain ⟨ts, op, c, ht, hop, hts, hanti, hd, hbal⟩ := h
  obtain ⟨m1, m2, m3, m4⟩ := Term.make_ok.1 ht
  have hsq : t.sqOp = op := by rw [m4]
  have hperm : t.tensors.Perm ts := by rw [m4]; exact sortTensors_perm ts
  obtain ⟨hU, hL⟩ := Term.permPartitionOpen_spec ht hop hd
  have htyL : op.lower.ty.isAntisym = true := by rw [← (IndicesPair.make_eq hop.2.2).2]; exact hanti
  have hwU : op.upper.WF := (Indices.make_eq hop.1).2
  have hwL : op.lower.WF := (Indices.make_eq hop.2.1).2
  obtain ⟨wc, nc, hrc, hnc, hSC⟩ := sideRows_all op.upper hanti hwU t.permPartitionOpen.1 hU.perm hU.pure
  obtain ⟨wa, na, hra, hna, hSA⟩ := sideRows_all op.lower htyL hwL t.permPartitionOpen.2 hL.perm hL.pure
  have e1 := existPermuteFormat_eq op.upper hanti _ hU.perm hU.ne hnc
  have e2 := existPermuteFormat_eq op.lower htyL _ hL.perm hL.ne hna
  have n1 : nc = t.nRows.1 := by
    have := (nMultiset_eq op.upper hanti _ hU.perm).1
    rw [hnc] at this; injection this
  have n2 : na = t.nRows.2 := by
    have := (nMultiset_eq op.lower htyL _ hL.perm).1
    rw [hna] at this; injection this
  obtain ⟨nc', na', k1, k2, k3⟩ := C58_key ts op c t ht hop hanti hd
  rw [hnc] at k1; injection k1 with k1
  rw [hna] at k2; injection k2 with k2
  subst k1; subst k2
  have hrows : t.nRows ≠ (1, 1) → t.sqOp.permuteIndices t.permPartitionOpen.1 t.permPartitionOpen.2 false =
      .ok ((wa.map fun w => (relSign op.lower.list w, w)).flatMap fun a =>
        (wc.map fun w => (relSign op.upper.list w, w)).map fun b => (a.1 * b.1, a.2, b.2)) := by
    intro hne
    rw [hsq]
    refine permuteIndices_eq op ?_ _ _ hra hrc
    by_contra hemp
    have he : op.size = 0 := by simpa [IndicesPair.isEmpty] using hemp
    have he : op.upper.size + op.lower.size = 0 := he
    have hz : ∀ x : Indices, x.ty.isAntisym = true → ∀ p : List (List Index), p.flatten.Perm x.list → x.size = 0 → ∀ n,
        x.nMultisetPermutation p = .ok n → n = 1 := by
      intro x hx p hp h0 n hn
      obtain ⟨a1, a2⟩ := nMultiset_eq x hx p hp
      rw [hn] at a1; injection a1 with a1
      rw [h0, Nat.factorial_zero, ← a1] at a2
      exact Nat.eq_one_of_mul_eq_one_right a2
    apply hne
    rw [Prod.ext_iff, ← n1, ← n2]
    exact ⟨hz _ hanti _ hU.perm (by omega) _ hnc, hz _ htyL _ hL.perm (by omega) _ hna⟩
  refine ⟨fun x hx => hts x (hperm.mem_iff.1 hx), by rw [hsq]; exact op_nodup ht hop hd, by rw [hsq]; exact hbal, by rw [hsq]; exact hU,
    by rw [hsq]; exact hL, ?_, ?_, ?_, ?_, ?_, ?_⟩
  · rw [k3, n1, n2, hsq]; rfl
  · intro hne
    refine ⟨wa, wc, ?_, ?_, ?_⟩
    · unfold Term.rows; rw [hrows hne, hsq]
    · rw [hsq, ← n2]; exact hSA
    · rw [hsq, ← n1]; exact hSC
  · intro he
    rw [Prod.ext_iff, ← n1, ← n2] at he
    obtain ⟨h1, h2⟩ := he
    simp only at h1 h2
    rw [h1] at e1
    rw [h2] at e2
    rw [hsq]
    exact ⟨(sideRows_one op.lower htyL _ hL.perm hL.pure e2).2, (sideRows_one op.upper hanti _ hU.perm hU.pure e1).2⟩
  · intro h
    rw [← n1] at h
    rw [h] at e1
    by_cases h0 : op.upper.size = 0
    · have : op.upper.list = [] := List.length_eq_zero_iff.1 h0
      unfold Term.permPartitionOpen
      simp only [hsq, this, permPartAtomic_nil, List.length_singleton, le_refl]
    · exact existPermuteFormat_false hanti e1 h0
  · intro h
    rw [← n2] at h
    rw [h] at e2
    by_cases h0 : op.lower.size = 0
    · have : op.lower.list = [] := List.length_eq_zero_iff.1 h0
      unfold Term.permPartitionOpen
      simp only [hsq, this, permPartAtomic_nil, List.length_singleton, le_refl]
    · exact existPermuteFormat_false htyL e2 h0
  · intro name ignore init
    have hcard : ¬ (t.diag.card ≠ 0) := by rw [hd]; simp
    unfold Term.ambit
    rw [if_neg hcard]
    simp only [IndicesPair.nMultisetPermutation, IndicesPair.existPermuteFormat, bind, Except.bind, pure, Except.pure]
    have hq : t.coeff * ((t.sqOp.upper.size.factorial * t.sqOp.lower.size.factorial : ℕ) : ℚ) / ((nc * na : ℕ) : ℚ) = t.printed := by
      unfold Term.printed; rw [← n1, ← n2]; rfl
    by_cases he : t.nRows = (1, 1)
    · rw [if_pos he]
      rw [Prod.ext_iff, ← n1, ← n2] at he
      obtain ⟨h1, h2⟩ := he
      simp only at h1 h2
      subst h1; subst h2
      rw [hsq] at hq ⊢
      simp only [hnc, hna, e1, e2, hq, ne_eq, not_true_eq_false, decide_false, Bool.not_false, Bool.false_eq_true, if_true, if_false,
        List.nil_append]
    · rw [if_neg he]
      have hr := hrows he
      rw [Prod.ext_iff, ← n1, ← n2] at he
      have hor : (if decide (nc ≠ 1) = true then Except.ok true else Except.ok (decide (na ≠ 1)) : Except PyErr Bool) = .ok true := by
        by_cases h1 : nc = 1
        · have h2 : na ≠ 1 := fun h2 => he ⟨h1, h2⟩
          simp [h1, h2]
        · simp [h1]
      have hrw : t.rows = ((wa.map fun w => (relSign op.lower.list w, w)).flatMap fun a =>
        (wc.map fun w => (relSign op.upper.list w, w)).map fun b => (a.1 * b.1, a.2, b.2)) := by
        unfold Term.rows; rw [hr]
      rw [hrw]
      rw [hsq] at hq hr ⊢
      simp only [hnc, hna, e1, e2, hq, hor, hr, Bool.not_true, Bool.false_eq_true, if_true, if_false, List.nil_append, Bool.or_true]
      cases ignore <;> cases init <;> simp

end Dsrg
