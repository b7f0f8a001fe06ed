import Mathlib.Data.List.Perm.Basic
import Verif.Lemmas.WickProduct

/-!
Sums over the contractions with a given property, the effect of moving a string, and the cancellation of the disconnected contractions in a nested commutator.
-/

namespace Dsrg

section
variable {α β R M : Type} [CommRing R] [AddCommGroup M] [Module R M]

open Classical in
/-- The sum over the contractions whose blocks have a property. -/
noncomputable def rowsSum (K : List α → R) (N : List α → M) (P : List (List α) → Prop) (w : List α) : M :=
  (((contractionRows w.length w).filter fun c => decide (P c.2.1)).map fun c => c.1 • (c.2.1.map K).prod • N c.2.2).sum

theorem choices_map (g : β → α) (w : List β) :
    choices (w.map g) = (choices w).map fun c => (c.1, c.2.1.map g, c.2.2.map g) := by
  induction w with
  | nil => rfl
  | cons a w ih => simp only [List.map_cons, choices, ih, List.map_append, List.map_map, Function.comp_def, List.length_map]

theorem contractionRows_map (g : β → α) (n : ℕ) (w : List β) :
    contractionRows n (w.map g) = (contractionRows n w).map fun c => (c.1, c.2.1.map (List.map g), c.2.2.map g) := by
  induction n generalizing w with
  | zero => cases w <;> rfl
  | succ n ih =>
    cases w with
    | nil => rfl
    | cons x w =>
      simp only [List.map_cons, contractionRows, ih, choices_map, List.map_append, List.map_map, Function.comp_def, List.flatMap_map,
        List.map_flatMap]

theorem rowsSum_map (K : List α → R) (N : List α → M) (P : List (List α) → Prop) (g : β → α) (w : List β) :
    rowsSum K N P (w.map g) = rowsSum (fun b => K (b.map g)) (fun r => N (r.map g)) (fun B => P (B.map (List.map g))) w := by
  classical
  unfold rowsSum
  rw [List.length_map, contractionRows_map, List.filter_map, List.map_map]
  simp only [Function.comp_def, List.map_map]

theorem rowsSum_congr {K K' : List α → R} {N N' : List α → M} {P P' : List (List α) → Prop} {w : List α}
    (h : ∀ c ∈ contractionRows w.length w, (P c.2.1 ↔ P' c.2.1) ∧ (∀ b ∈ c.2.1, K b = K' b) ∧ N c.2.2 = N' c.2.2) :
    rowsSum K N P w = rowsSum K' N' P' w := by
  classical
  unfold rowsSum
  have e : ((contractionRows w.length w).filter fun c => decide (P c.2.1)) =
      (contractionRows w.length w).filter fun c => decide (P' c.2.1) :=
    List.filter_congr fun c hc => by simp [(h c hc).1]
  rw [e]
  congr 1
  refine List.map_congr_left fun c hc => ?_
  obtain ⟨-, h2, h3⟩ := h c (List.mem_filter.mp hc).1
  rw [List.map_congr_left h2, h3]

theorem rowsSum_all (K : List α → R) (N : List α → M) (w : List α) :
    rowsSum K N (fun _ => True) w = contractionSum K w.length w N := by
  rw [contractionSum_eq]
  simp [rowsSum]

theorem rowsSum_split (K : List α → R) (N : List α → M) (P : List (List α) → Prop) (w : List α) :
    rowsSum K N (fun _ => True) w = rowsSum K N P w + rowsSum K N (fun B => ¬ P B) w := by
  classical
  unfold rowsSum
  generalize contractionRows w.length w = L
  induction L with
  | nil => simp
  | cons c L ih =>
    simp only [decide_true, List.filter_true] at ih ⊢
    by_cases hP : P c.2.1
    · simp [hP, ih, add_assoc]
    · simp [hP, ih]; abel

open Classical in
theorem rowsSum_ite (K : List α → R) (N : List α → M) (P : List (List α) → Prop) (w : List α) :
    rowsSum K N P w = ((contractionRows w.length w).map fun c => if P c.2.1 then c.1 • (c.2.1.map K).prod • N c.2.2 else 0).sum := by
  unfold rowsSum
  generalize contractionRows w.length w = L
  induction L with
  | nil => rfl
  | cons c L ih =>
    by_cases hP : P c.2.1
    · simp [hP, ih]
    · simp [hP, ih]

theorem rowsSum_index (K : List α → R) (N : List α → M) (P : List (List α) → Prop) (w : List α) (f : List (List α) → ℕ) (n : ℕ)
    (hf : ∀ c ∈ contractionRows w.length w, P c.2.1 → f c.2.1 < n) :
    rowsSum K N P w = ∑ i ∈ Finset.range n, rowsSum K N (fun B => P B ∧ f B = i) w := by
  classical
  simp only [rowsSum_ite]
  generalize contractionRows w.length w = L at hf
  induction L with
  | nil => simp
  | cons c L ih =>
    have ih' := ih fun c hc => hf c (List.mem_cons_of_mem _ hc)
    simp only [List.map_cons, List.sum_cons, Finset.sum_add_distrib]
    rw [ih']
    congr 1
    by_cases hP : P c.2.1
    · have hlt := hf c List.mem_cons_self hP
      simp only [hP, true_and, if_true, Finset.sum_ite_eq, Finset.mem_range, hlt]
    · simp [hP]

end

/-- Two lists of values with the same keys. -/
theorem sum_match {β γ κ M : Type} [AddCommMonoid M] {L : List β} {L' : List γ} {k : β → κ} {k' : γ → κ} (h : (L.map k).Perm (L'.map k'))
    {v : β → M} {v' : γ → M} (hv : ∀ c ∈ L, ∀ c' ∈ L', k c = k' c' → v c = v' c') : (L.map v).sum = (L'.map v').sum := by
  classical
  let V : κ → M := fun x => if hx : ∃ c' ∈ L', k' c' = x then v' hx.choose else 0
  have h1 : L.map v = (L.map k).map V := by
    rw [List.map_map]
    refine List.map_congr_left fun c hc => ?_
    have hx : ∃ c' ∈ L', k' c' = k c := List.mem_map.mp (h.subset (List.mem_map_of_mem hc))
    show v c = V (k c)
    simp only [V, dif_pos hx]
    exact hv c hc _ hx.choose_spec.1 hx.choose_spec.2.symm
  have h2 : L'.map v' = (L'.map k').map V := by
    rw [List.map_map]
    refine List.map_congr_left fun c hc => ?_
    obtain ⟨c0, hc0, e0⟩ := List.mem_map.mp (h.symm.subset (List.mem_map_of_mem hc))
    have hx : ∃ c' ∈ L', k' c' = k' c := ⟨c, hc, rfl⟩
    show v' c = V (k' c)
    simp only [V, dif_pos hx]
    rw [← hv c0 hc0 c hc e0, ← hv c0 hc0 _ hx.choose_spec.1 (e0.trans hx.choose_spec.2.symm)]
  rw [h1, h2]
  exact (h.map V).sum_eq

section
variable {α : Type}

/-- The blocks of a contraction without the order of the blocks and in the blocks. -/
def blocksKey (B : List (List α)) : Multiset (Multiset α) := Multiset.ofList (B.map Multiset.ofList)

theorem blocksKey_eq_iff {B C : List (List α)} : blocksKey B = blocksKey C ↔ ∃ B', B'.Perm C ∧ List.Forall₂ List.Perm B B' := by
  constructor
  · intro h
    have h1 : (B.map Multiset.ofList).Perm (C.map Multiset.ofList) := Multiset.coe_eq_coe.mp h
    have h3 : ∀ (m : List (Multiset α)) (C : List (List α)), m.Perm (C.map Multiset.ofList) →
        ∃ B' : List (List α), B'.Perm C ∧ m = B'.map Multiset.ofList := by
      intro m C hm
      have hf : List.Forall₂ (fun (m : Multiset α) (b : List α) => (b : Multiset α) = m) (C.map Multiset.ofList) C := by
        rw [List.forall₂_map_left_iff]; exact List.forall₂_same.mpr fun _ _ => rfl
      obtain ⟨B', h1, h2⟩ := List.perm_comp_forall₂ hm hf
      refine ⟨B', h2, ?_⟩
      clear hm hf h2
      induction h1 with
      | nil => rfl
      | cons h _ ih => rw [List.map_cons, ← ih, h]
    obtain ⟨B', hB', e⟩ := h3 _ _ h1
    refine ⟨B', hB', ?_⟩
    clear h h1 hB'
    induction B generalizing B' with
    | nil => cases B' with
      | nil => exact List.Forall₂.nil
      | cons => simp at e
    | cons b B ih => cases B' with
      | nil => simp at e
      | cons b' B' =>
        simp only [List.map_cons, List.cons.injEq] at e
        exact List.Forall₂.cons (Multiset.coe_eq_coe.mp e.1) (ih _ e.2)
  · rintro ⟨B', h1, h2⟩
    have : B.map Multiset.ofList = B'.map Multiset.ofList := by
      clear h1
      induction h2 with
      | nil => rfl
      | cons h _ ih => rw [List.map_cons, List.map_cons, ih, Multiset.coe_eq_coe.mpr h]
    unfold blocksKey
    rw [this]
    exact Multiset.coe_eq_coe.mpr (h1.map _)

theorem blocksKey_mem {B C : List (List α)} (h : blocksKey B = blocksKey C) {b : List α} (hb : b ∈ B) : ∃ c ∈ C, b.Perm c := by
  obtain ⟨B', h1, h2⟩ := blocksKey_eq_iff.mp h
  obtain ⟨c, hc, hp⟩ := forall₂_mem_left h2 hb
  exact ⟨c, h1.subset hc, hp⟩

theorem nodup_blocks {n : ℕ} {w : List α} (hw : w.length ≤ n) (hn : w.Nodup) {c : ℤ × List (List α) × List α}
    (h : c ∈ contractionRows n w) : c.2.1.Nodup := by
  obtain ⟨h1, h2⟩ := rows_blocks hw h
  have hd := (List.nodup_flatten.mp (List.nodup_append.mp (h2.nodup_iff.mpr hn)).1).2
  refine hd.imp_of_mem fun {b b'} hb _ hdis e => ?_
  subst e
  exact (h1 b hb).1 (List.eq_nil_iff_forall_not_mem.mpr fun x hx => List.disjoint_left.mp hdis hx hx)

/-- Rows of one word with the same blocks are the same. -/
theorem rows_key_inj {w : List α} (hn : w.Nodup) : ((contractionRows w.length w).map fun c => blocksKey c.2.1).Nodup := by
  refine List.pairwise_map.mpr ?_
  refine (rows_pairwise (Nat.le_refl _) hn).imp_of_mem fun {c c'} hc hc' hne e => hne ?_
  have h1 := rows_blocks (Nat.le_refl _) hc
  have h2 := rows_blocks (Nat.le_refl _) hc'
  refine (List.perm_ext_iff_of_nodup (nodup_blocks (Nat.le_refl _) hn hc) (nodup_blocks (Nat.le_refl _) hn hc')).mpr fun b => ⟨fun hb => ?_, fun hb => ?_⟩
  · obtain ⟨b', hb', hp⟩ := blocksKey_mem e hb
    rw [sublist_ext hn (h1.1 b hb).2 (h2.1 b' hb').2 fun x => hp.mem_iff]
    exact hb'
  · obtain ⟨b', hb', hp⟩ := blocksKey_mem e.symm hb
    rw [sublist_ext hn (h2.1 b hb).2 (h1.1 b' hb').2 fun x => hp.mem_iff]
    exact hb'

theorem rows_key_perm {w w' : List α} (hn : w.Nodup) (hp : w.Perm w') {c : ℤ × List (List α) × List α}
    (hc : c ∈ contractionRows w.length w) : ∃ c' ∈ contractionRows w'.length w', blocksKey c.2.1 = blocksKey c'.2.1 := by
  obtain ⟨h1, h2⟩ := rows_blocks (Nat.le_refl _) hc
  obtain ⟨c', hc', B', hB', hf⟩ := mem_rows (n := w'.length) (w := w') (B := c.2.1) (Nat.le_refl _) (hp.nodup_iff.mp hn)
    (List.nodup_append.mp (h2.nodup_iff.mpr hn)).1 (fun b hb => (h1 b hb).1)
    (fun x hx => hp.subset (h2.subset (List.mem_append_left _ hx)))
  exact ⟨c', hc', (blocksKey_eq_iff.mpr ⟨B', hB', hf⟩).symm⟩

theorem AntisymmFn.blocks₂ [DecidableEq α] {M : Type} [AddCommGroup M] {F : List α → M} (hF : AntisymmFn F) {bs cs : List (List α)}
    (h : List.Forall₂ List.Perm bs cs) : ∃ s : ℤ, (∀ (R : Type) [CommRing R] (K : List α → R),
        List.Forall₂ (fun b c => K b = (Dsrg.relSign b c : R) * K c) bs cs → (bs.map K).prod = (s : R) * (cs.map K).prod) ∧
      ∀ pre post, (pre ++ bs.flatten ++ post).Nodup → F (pre ++ bs.flatten ++ post) = s • F (pre ++ cs.flatten ++ post) := by
  induction h with
  | nil => exact ⟨1, fun R _ K _ => by simp, fun pre post _ => by simp⟩
  | @cons b c bs cs hb hbs ih =>
    obtain ⟨s, h1, h2⟩ := ih
    refine ⟨Dsrg.relSign b c * s, fun R _ K hK => ?_, fun pre post hn => ?_⟩
    · cases hK with
      | cons ha hK =>
        rw [List.map_cons, List.prod_cons, h1 R K hK, ha, List.map_cons, List.prod_cons]
        push_cast; ring
    · have k1 := hF.relSign_inside (pre := pre) (v := b) (w := c) (post := bs.flatten ++ post) (by simpa using hn) hb
      have hn' : (pre ++ c ++ (bs.flatten ++ post)).Nodup := by
        have hp : (pre ++ b ++ (bs.flatten ++ post)).Perm (pre ++ c ++ (bs.flatten ++ post)) :=
          List.Perm.append_right _ (List.Perm.append_left _ hb)
        exact hp.nodup_iff.mp (by simpa using hn)
      have k2 := h2 (pre ++ c) post (by simpa using hn')
      simp only [List.flatten_cons, List.append_assoc] at k1 k2 ⊢
      rw [k1, k2, smul_smul]

end

section
variable {α R M : Type} [CommRing R] [AddCommGroup M] [Module R M]

/-- Rearranging the operators of a word without exchanging the two operators of a pair. -/
theorem rowsSum_perm [DecidableEq α] {K : List α → R} {N : List α → M} {P : List (List α) → Prop} {w w' : List α} (hn : w.Nodup) (hp : w.Perm w')
    (hodd : ∀ b, b.length % 2 = 1 → K b = 0) (hK : ∀ b b', b.Nodup → b.Perm b' → 3 ≤ b.length → K b = (relSign b b' : R) * K b')
    (hN : AntisymmFn N) (hP : ∀ B B', blocksKey B = blocksKey B' → (P B ↔ P B'))
    (hcross : ∀ B, P B → ∀ b ∈ B, b.length = 2 → b.Sublist w → b.Sublist w') :
    rowsSum K N P w = relSign w w' • rowsSum K N P w' := by
  classical
  have hn' := hp.nodup_iff.mp hn
  unfold rowsSum
  rw [List.smul_sum, List.map_map]
  refine sum_match (k := fun c => blocksKey c.2.1) (k' := fun c => blocksKey c.2.1) ?_ ?_
  · refine (List.perm_ext_iff_of_nodup ?_ ?_).mpr fun x => ?_
    · exact (rows_key_inj hn).sublist (List.filter_sublist.map _)
    · exact (rows_key_inj hn').sublist (List.filter_sublist.map _)
    · simp only [List.mem_map, List.mem_filter, decide_eq_true_eq]
      constructor
      · rintro ⟨c, ⟨hc, hPc⟩, rfl⟩
        obtain ⟨c', hc', e⟩ := rows_key_perm hn hp hc
        exact ⟨c', ⟨hc', (hP _ _ e).mp hPc⟩, e.symm⟩
      · rintro ⟨c, ⟨hc, hPc⟩, rfl⟩
        obtain ⟨c', hc', e⟩ := rows_key_perm hn' hp.symm hc
        exact ⟨c', ⟨hc', (hP _ _ e).mp hPc⟩, e.symm⟩
  · intro c hc c' hc' e
    simp only [List.mem_filter, decide_eq_true_eq] at hc hc'
    obtain ⟨hc, hPc⟩ := hc
    obtain ⟨hc', -⟩ := hc'
    obtain ⟨h1, h2⟩ := rows_blocks (Nat.le_refl _) hc
    obtain ⟨h1', h2'⟩ := rows_blocks (Nat.le_refl _) hc'
    have hwn := h2.nodup_iff.mpr hn
    have hwn' := h2'.nodup_iff.mpr hn'
    obtain ⟨B', hB', hf⟩ := blocksKey_eq_iff.mp e
    show c.1 • (c.2.1.map K).prod • N c.2.2 = relSign w w' • c'.1 • (c'.2.1.map K).prod • N c'.2.2
    by_cases heven : ∀ b ∈ c.2.1, 2 ∣ b.length
    · have heven' : ∀ b ∈ c'.2.1, 2 ∣ b.length := by
        intro b hb
        obtain ⟨b', hb', hbb⟩ := blocksKey_mem e.symm hb
        rw [hbb.length_eq]; exact heven b' hb'
      have hF := antisymmFn_relSign w
      obtain ⟨s, hs1, hs2⟩ := hF.blocks₂ hf
      have hKs : (c.2.1.map K).prod = (s : R) * (c'.2.1.map K).prod := by
        rw [hs1 R K ?_, (hB'.map K).prod_eq]
        have hsub' : ∀ b ∈ B', b.Sublist w' := fun b hb => (h1' b (hB'.subset hb)).2
        have hsub : ∀ b ∈ c.2.1, b.Nodup ∧ b.Sublist w ∧ (b.length = 2 → b.Sublist w') := fun b hb =>
          ⟨(h1 b hb).2.nodup hn, (h1 b hb).2, fun hl => hcross _ hPc b hb hl (h1 b hb).2⟩
        have hne : ∀ b ∈ c.2.1, b ≠ [] := fun b hb => (h1 b hb).1
        revert hsub hsub' hne heven
        generalize c.2.1 = bs at hf
        intro heven hsub' hsub hne
        clear hs1 hs2 e hB' hPc hc h1 h2 hwn
        induction hf with
        | nil => exact List.Forall₂.nil
        | @cons b b' bs bs' hb hbs ih =>
          refine List.Forall₂.cons ?_ (ih (fun b hb => heven b (List.mem_cons_of_mem _ hb)) (fun b hb => hsub' b (List.mem_cons_of_mem _ hb))
            (fun b hb => hsub b (List.mem_cons_of_mem _ hb)) (fun b hb => hne b (List.mem_cons_of_mem _ hb)))
          obtain ⟨k1, k2, k3⟩ := hsub b List.mem_cons_self
          by_cases h3 : 3 ≤ b.length
          · exact hK b b' k1 hb h3
          · have hl : b.length = 2 := by
              have := heven b List.mem_cons_self
              have := List.length_pos_iff.mpr (hne b List.mem_cons_self)
              omega
            have : b = b' := sublist_ext hn' (k3 hl) (hsub' b' List.mem_cons_self) fun x => hb.mem_iff
            subst this
            rw [relSign_self k1]; simp
      have hBw : (B'.flatten ++ c.2.2).Perm w := (List.Perm.append_right _ (by
        have : ∀ {bs cs : List (List α)}, List.Forall₂ List.Perm bs cs → cs.flatten.Perm bs.flatten := by
          intro bs cs h
          induction h with
          | nil => exact List.Perm.refl _
          | cons h _ ih => rw [List.flatten_cons, List.flatten_cons]; exact h.symm.append ih
        exact this hf)).trans h2
      have hr : c.2.2.Perm c'.2.2 := by
        refine (List.perm_append_left_iff c'.2.1.flatten).mp ?_
        exact (List.Perm.append_right _ hB'.flatten.symm).trans (hBw.trans (hp.trans h2'.symm))
      have hNr : N c.2.2 = relSign c.2.2 c'.2.2 • N c'.2.2 := hN.relSign (List.nodup_append.mp hwn).2.1 hr
      have hsgn : c.1 * s * relSign c.2.2 c'.2.2 = relSign w w' * c'.1 := by
        have a1 := rows_sign (Nat.le_refl _) hc heven hF [] (by simpa using hn)
        have a2 := hs2 [] c.2.2 (by simpa using hwn)
        have a3 := hF.perm_even_blocks id hB' [] c.2.2 (fun b hb => heven' b (hB'.subset hb)) (by
          simpa [List.flatMap_id] using hBw.nodup_iff.mpr hn)
        have a4 := hF.relSign_inside (pre := c'.2.1.flatten) (post := []) (v := c.2.2) (w := c'.2.2) (by
          have : (c'.2.1.flatten ++ c.2.2).Perm w := (List.Perm.append_right _ hB'.flatten.symm).trans hBw
          simpa using this.nodup_iff.mpr hn) hr
        have a5 := rows_sign (Nat.le_refl _) hc' heven' hF [] (by simpa using hn')
        have a6 := hF.relSign hn hp
        simp only [List.nil_append, List.append_nil, List.flatMap_id] at a1 a2 a3 a4 a5
        rw [a6, a5] at a1
        rw [a2, ← a3, a4] at a1
        have hpw : (c'.2.1.flatten ++ c'.2.2).Perm w := h2'.trans hp.symm
        rw [if_pos hpw] at a1
        have hne : relSign w (c'.2.1.flatten ++ c'.2.2) ≠ 0 := by
          intro h0
          have := relSign_sq w (c'.2.1.flatten ++ c'.2.2)
          rw [h0] at this
          exact absurd this (by simp)
        refine mul_right_cancel₀ hne ?_
        simp only [smul_eq_mul] at a1
        rw [mul_assoc, mul_assoc, mul_assoc, a1]
      rw [hKs, hNr]
      simp only [← Int.cast_smul_eq_zsmul R, smul_smul]
      congr 1
      have := congrArg (Int.cast (R := R)) hsgn
      push_cast at this
      linear_combination (c'.2.1.map K).prod * this
    · push Not at heven
      obtain ⟨b, hb, hbo⟩ := heven
      obtain ⟨b', hb', hbb⟩ := blocksKey_mem e hb
      have z1 : (c.2.1.map K).prod = 0 := List.prod_eq_zero (List.mem_map.mpr ⟨b, hb, hodd b (by omega)⟩)
      have z2 : (c'.2.1.map K).prod = 0 :=
        List.prod_eq_zero (List.mem_map.mpr ⟨b', hb', hodd b' (by rw [← hbb.length_eq]; omega)⟩)
      rw [z1, z2]; simp

end

end Dsrg
