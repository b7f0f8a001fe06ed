import Verif.Lemmas.WickAlgebra
import Verif.Lemmas.Contract

/-!
The sum over all contractions as a sum over a list of rows: a sign, the contracted blocks and the remaining operators.
-/

namespace Dsrg

section
variable {α : Type}

/-- All choices of a part of a list, with signs. -/
def choices : List α → List (ℤ × List α × List α)
  | [] => [(1, [], [])]
  | a :: w => (choices w).map (fun c => (c.1, a :: c.2.1, c.2.2)) ++
      (choices w).map fun c => ((-1) ^ c.2.1.length * c.1, c.2.1, a :: c.2.2)

theorem signedChoices_eq {M : Type} [AddCommGroup M] (w : List α) (G : List α → List α → M) :
    signedChoices w G = ((choices w).map fun c => c.1 • G c.2.1 c.2.2).sum := by
  induction w generalizing G with
  | nil => simp [signedChoices, choices]
  | cons a w ih =>
    simp only [signedChoices, choices, ih, List.map_append, List.sum_append, List.map_map]
    congr 3
    funext c
    simp only [Function.comp, smul_smul]
    rw [mul_comm]

theorem choices_sublist {w : List α} {c : ℤ × List α × List α} (h : c ∈ choices w) : c.2.1.Sublist w ∧ c.2.2.Sublist w ∧
    (c.2.1 ++ c.2.2).Perm w := by
  induction w generalizing c with
  | nil => simp [choices] at h; subst h; simp
  | cons a w ih =>
    simp only [choices, List.mem_append, List.mem_map] at h
    rcases h with ⟨d, hd, rfl⟩ | ⟨d, hd, rfl⟩
    · obtain ⟨h1, h2, h3⟩ := ih hd
      exact ⟨h1.cons_cons a, h2.cons a, h3.cons a⟩
    · obtain ⟨h1, h2, h3⟩ := ih hd
      exact ⟨h1.cons a, h2.cons_cons a, List.perm_middle.trans (h3.cons a)⟩

theorem choices_sign {w : List α} {c : ℤ × List α × List α} (h : c ∈ choices w) {M : Type} [AddCommGroup M] {F : List α → M}
    (hF : AntisymmFn F) : ∀ pre, (pre ++ w).Nodup → F (pre ++ w) = c.1 • F (pre ++ (c.2.1 ++ c.2.2)) := by
  induction w generalizing c with
  | nil => simp [choices] at h; subst h; simp
  | cons a w ih =>
    intro pre hn
    simp only [choices, List.mem_append, List.mem_map] at h
    rcases h with ⟨d, hd, rfl⟩ | ⟨d, hd, rfl⟩
    · have := ih hd (pre ++ [a]) (by simpa using hn)
      simpa using this
    · have h1 := ih hd (pre ++ [a]) (by simpa using hn)
      have hp := (choices_sublist hd).2.2
      have h2 := hF.move_one a d.2.1 pre d.2.2 (by
        rw [List.append_assoc]
        refine (List.Perm.nodup_iff ?_).mpr hn
        exact List.Perm.append_left pre (hp.cons a))
      simp only [List.append_assoc, List.cons_append, List.nil_append] at h1 h2 ⊢
      rw [h1, h2, smul_smul, signPow, mul_assoc, mul_comm, mul_assoc, sign_mul_self, mul_one]

theorem choices_pairwise {w : List α} (hn : w.Nodup) : (choices w).Pairwise fun c c' => c.2.1 ≠ c'.2.1 := by
  induction w with
  | nil => simp [choices]
  | cons a w ih =>
    obtain ⟨ha, hn⟩ := List.nodup_cons.mp hn
    simp only [choices, List.pairwise_append, List.pairwise_map, List.mem_map]
    refine ⟨(ih hn).imp fun h e => h (List.cons.inj e).2, ih hn, ?_⟩
    rintro _ ⟨c, hc, rfl⟩ _ ⟨d, hd, rfl⟩ e
    have : a ∈ d.2.1 := by
      have e' : a :: c.2.1 = d.2.1 := e
      rw [← e']; exact List.mem_cons_self
    exact ha ((choices_sublist hd).1.subset this)

theorem mem_choices {w b : List α} (hn : w.Nodup) (hb : b.Nodup) (hs : ∀ x ∈ b, x ∈ w) : ∃ c ∈ choices w, c.2.1.Perm b := by
  induction w generalizing b with
  | nil =>
    have : b = [] := List.eq_nil_iff_forall_not_mem.mpr fun x hx => by simpa using hs x hx
    subst this
    exact ⟨_, List.mem_singleton.mpr rfl, List.Perm.refl _⟩
  | cons a w ih =>
    obtain ⟨ha, hn⟩ := List.nodup_cons.mp hn
    classical
    by_cases hab : a ∈ b
    · have hp := List.perm_cons_erase hab
      obtain ⟨c, hc, hcp⟩ := ih (b := b.erase a) hn (hb.erase a) (by
        intro x hx
        rcases List.mem_cons.mp (hs x (List.mem_of_mem_erase hx)) with rfl | h
        · exact ((hb.not_mem_erase) hx).elim
        · exact h)
      exact ⟨_, List.mem_append_left _ (List.mem_map_of_mem hc), (hcp.cons a).trans hp.symm⟩
    · obtain ⟨c, hc, hcp⟩ := ih (b := b) hn hb (by
        intro x hx
        rcases List.mem_cons.mp (hs x hx) with rfl | h
        · exact (hab hx).elim
        · exact h)
      exact ⟨_, List.mem_append_right _ (List.mem_map_of_mem hc), hcp⟩

/-- All sets of blocks, with signs. -/
def contractionRows : Nat → List α → List (ℤ × List (List α) × List α)
  | _, [] => [(1, [], [])]
  | 0, _ => [(1, [], [])]
  | n + 1, x :: w => (contractionRows n w).map (fun c => (c.1, c.2.1, x :: c.2.2)) ++
      (choices w).flatMap fun d => (contractionRows n d.2.2).map fun c => (d.1 * c.1, (x :: d.2.1) :: c.2.1, c.2.2)

theorem sum_flatMap_value {β γ M : Type} [AddCommMonoid M] (l : List β) (f : β → List γ) (g : γ → M) :
    ((l.flatMap f).map g).sum = (l.map fun b => ((f b).map g).sum).sum := by
  induction l with
  | nil => rfl
  | cons b l ih => simp [ih]

theorem contractionSum_eq {R M : Type} [CommRing R] [AddCommGroup M] [Module R M] (K : List α → R) (n : ℕ) (w : List α) (G : List α → M) :
    contractionSum K n w G = ((contractionRows n w).map fun c => c.1 • (c.2.1.map K).prod • G c.2.2).sum := by
  induction n generalizing w G with
  | zero => cases w <;> simp [contractionSum, contractionRows]
  | succ n ih =>
    cases w with
    | nil => simp [contractionSum, contractionRows]
    | cons x w =>
      simp only [contractionSum, contractionRows, ih, List.map_append, List.sum_append, List.map_map]
      congr 1
      rw [signedChoices_eq, sum_flatMap_value]
      congr 1
      refine List.map_congr_left fun d _ => ?_
      rw [List.smul_sum, List.smul_sum]
      simp only [List.map_map]
      congr 1
      refine List.map_congr_left fun c _ => ?_
      simp only [Function.comp, List.map_cons, List.prod_cons, mul_smul]
      rw [smul_comm (K (x :: d.2.1)) c.1]

theorem rows_blocks {n : ℕ} {w : List α} (hw : w.length ≤ n) {c : ℤ × List (List α) × List α} (h : c ∈ contractionRows n w) :
    (∀ b ∈ c.2.1, b ≠ [] ∧ b.Sublist w) ∧ (c.2.1.flatten ++ c.2.2).Perm w := by
  induction n generalizing w c with
  | zero =>
    obtain rfl := List.length_eq_zero_iff.mp (Nat.le_zero.mp hw)
    simp [contractionRows] at h; subst h; simp
  | succ n ih =>
    cases w with
    | nil => simp [contractionRows] at h; subst h; simp
    | cons x w =>
      simp only [List.length_cons] at hw
      simp only [contractionRows, List.mem_append, List.mem_map, List.mem_flatMap] at h
      rcases h with ⟨d, hd, rfl⟩ | ⟨d, hd, e, he, rfl⟩
      · obtain ⟨h1, h2⟩ := ih (by omega) hd
        exact ⟨fun b hb => ⟨(h1 b hb).1, (h1 b hb).2.cons x⟩, List.perm_middle.trans (h2.cons x)⟩
      · obtain ⟨k1, k2, k3⟩ := choices_sublist hd
        have := k2.length_le
        obtain ⟨h1, h2⟩ := ih (by omega) he
        refine ⟨fun b hb => ?_, ?_⟩
        · rcases List.mem_cons.mp hb with rfl | hb
          · exact ⟨by simp, k1.cons_cons x⟩
          · exact ⟨(h1 b hb).1, ((h1 b hb).2.trans k2).cons x⟩
        · simp only [List.flatten_cons, List.cons_append, List.append_assoc]
          exact ((List.Perm.append_left _ h2).trans k3).cons x

theorem rows_sign {n : ℕ} {w : List α} (hw : w.length ≤ n) {c : ℤ × List (List α) × List α} (h : c ∈ contractionRows n w)
    (heven : ∀ b ∈ c.2.1, 2 ∣ b.length) {M : Type} [AddCommGroup M] {F : List α → M}
    (hF : AntisymmFn F) : ∀ pre, (pre ++ w).Nodup → F (pre ++ w) = c.1 • F (pre ++ (c.2.1.flatten ++ c.2.2)) := by
  induction n generalizing w c with
  | zero =>
    obtain rfl := List.length_eq_zero_iff.mp (Nat.le_zero.mp hw)
    simp [contractionRows] at h; subst h; simp
  | succ n ih =>
    cases w with
    | nil => simp [contractionRows] at h; subst h; simp
    | cons x w =>
      intro pre hn
      simp only [List.length_cons] at hw
      simp only [contractionRows, List.mem_append, List.mem_map, List.mem_flatMap] at h
      rcases h with ⟨d, hd, rfl⟩ | ⟨d, hd, e, he, rfl⟩
      · have h1 := ih (by omega) hd heven (pre ++ [x]) (by simpa using hn)
        have hp := (rows_blocks (by omega) hd).2
        have h2 := hF.move_one x d.2.1.flatten pre d.2.2 (by
          rw [List.append_assoc]
          exact (List.Perm.append_left pre (hp.cons x)).nodup_iff.mpr hn)
        have hev : signPow d.2.1.flatten.length = 1 := by
          have : 2 ∣ d.2.1.flatten.length := by
            rw [List.length_flatten]
            refine List.dvd_sum fun k hk => ?_
            obtain ⟨b, hb, rfl⟩ := List.mem_map.mp hk
            exact heven b hb
          exact Even.neg_one_pow (even_iff_two_dvd.mpr this)
        rw [hev, one_smul] at h2
        simp only [List.append_assoc, List.cons_append, List.nil_append] at h1 h2 ⊢
        rw [h1, h2]
      · obtain ⟨k1, k2, k3⟩ := choices_sublist hd
        have := k2.length_le
        have h1 := choices_sign hd hF (pre ++ [x]) (by simpa using hn)
        have h2 := ih (by omega) he (fun b hb => heven b (List.mem_cons_of_mem _ hb)) (pre ++ x :: d.2.1) (by
          have : (pre ++ x :: d.2.1 ++ d.2.2).Perm (pre ++ x :: w) := by
            rw [List.append_assoc]
            exact List.Perm.append_left pre (k3.cons x)
          exact this.nodup_iff.mpr hn)
        simp only [List.append_assoc, List.cons_append, List.nil_append, List.flatten_cons] at h1 h2 ⊢
        rw [h1, h2, smul_smul]

theorem rows_pairwise {n : ℕ} {w : List α} (hw : w.length ≤ n) (hn : w.Nodup) :
    (contractionRows n w).Pairwise fun c c' => ¬ c.2.1.Perm c'.2.1 := by
  induction n generalizing w with
  | zero =>
    obtain rfl := List.length_eq_zero_iff.mp (Nat.le_zero.mp hw)
    simp [contractionRows]
  | succ n ih =>
    cases w with
    | nil => simp [contractionRows]
    | cons x w =>
      obtain ⟨hx, hn⟩ := List.nodup_cons.mp hn
      simp only [List.length_cons] at hw
      simp only [contractionRows, List.pairwise_append, List.pairwise_map, List.mem_map, List.mem_flatMap, List.pairwise_flatMap]
      have hin : ∀ {w' : List α}, w'.Sublist w → ∀ c ∈ contractionRows n w', ∀ b ∈ c.2.1, x ∉ b := by
        intro w' hs c hc b hb hxb
        have := hs.length_le
        exact hx (hs.subset ((((rows_blocks (by omega) hc).1 b hb).2).subset hxb))
      refine ⟨(ih (by omega) hn), ⟨fun d hd => ?_, ?_⟩, ?_⟩
      · obtain ⟨-, k2, -⟩ := choices_sublist hd
        have := k2.length_le
        exact (ih (by omega) (k2.nodup hn)).imp fun h e => h ((List.perm_cons _).mp e)
      · refine (choices_pairwise hn).imp_of_mem fun {d d'} hd hd' hne => ?_
        rintro _ ⟨c, hc, rfl⟩ _ ⟨c', hc', rfl⟩ e
        have hm : (x :: d.2.1) ∈ (x :: d'.2.1) :: c'.2.1 := e.subset List.mem_cons_self
        rcases List.mem_cons.mp hm with h | h
        · exact hne (List.cons.inj h).2
        · exact hin (choices_sublist hd').2.1 c' hc' _ h List.mem_cons_self
      · rintro _ ⟨c, hc, rfl⟩ _ ⟨d, hd, c', hc', rfl⟩ e
        exact hin (List.Sublist.refl _) c hc _ (e.symm.subset List.mem_cons_self) List.mem_cons_self

theorem mem_rows {n : ℕ} {w : List α} (hw : w.length ≤ n) (hn : w.Nodup) {B : List (List α)} (hB : B.flatten.Nodup)
    (hne : ∀ b ∈ B, b ≠ []) (hs : ∀ x ∈ B.flatten, x ∈ w) :
    ∃ c ∈ contractionRows n w, ∃ B', B'.Perm B ∧ List.Forall₂ List.Perm c.2.1 B' := by
  have empty : ∀ B : List (List α), (∀ b ∈ B, b ≠ []) → (∀ x ∈ B.flatten, x ∈ ([] : List α)) → B = [] := by
    intro B hne hs
    refine List.eq_nil_iff_forall_not_mem.mpr fun b hb => ?_
    obtain ⟨a, b', rfl⟩ := List.exists_cons_of_ne_nil (hne b hb)
    simpa using hs a (List.mem_flatten.mpr ⟨_, hb, List.mem_cons_self⟩)
  induction n generalizing w B with
  | zero =>
    obtain rfl := List.length_eq_zero_iff.mp (Nat.le_zero.mp hw)
    obtain rfl := empty B hne hs
    exact ⟨_, List.mem_singleton.mpr rfl, [], List.Perm.refl _, List.Forall₂.nil⟩
  | succ n ih =>
    cases w with
    | nil =>
      obtain rfl := empty B hne hs
      exact ⟨_, List.mem_singleton.mpr rfl, [], List.Perm.refl _, List.Forall₂.nil⟩
    | cons x w =>
      obtain ⟨hx, hn⟩ := List.nodup_cons.mp hn
      simp only [List.length_cons] at hw
      by_cases hxB : x ∈ B.flatten
      · obtain ⟨b, hb, hxb⟩ := List.mem_flatten.mp hxB
        classical
        have hp := List.perm_cons_erase hb
        have hfl : B.flatten.Perm (b ++ (B.erase b).flatten) := hp.flatten
        have hnd := hfl.nodup_iff.mp hB
        obtain ⟨hbn, hB1, hdis⟩ := List.nodup_append.mp hnd
        have hpb := List.perm_cons_erase hxb
        obtain ⟨d, hd, hdp⟩ := mem_choices (w := w) (b := b.erase x) hn (hbn.erase x) (by
          intro y hy
          rcases List.mem_cons.mp (hs y (hfl.symm.subset (List.mem_append_left _ (List.mem_of_mem_erase hy)))) with rfl | h
          · exact (hbn.not_mem_erase hy).elim
          · exact h)
        obtain ⟨k1, k2, k3⟩ := choices_sublist hd
        have := k2.length_le
        obtain ⟨c, hc, B', hB', hf⟩ := ih (w := d.2.2) (B := B.erase b) (by omega) (k2.nodup hn) hB1
          (fun b' hb' => hne b' (List.mem_of_mem_erase hb')) (by
            intro y hy
            have hyw : y ∈ w := by
              rcases List.mem_cons.mp (hs y (hfl.symm.subset (List.mem_append_right _ hy))) with rfl | h
              · exact (hdis y hxb y hy rfl).elim
              · exact h
            rcases List.mem_append.mp (k3.symm.subset hyw) with h | h
            · exact (hdis y (List.mem_of_mem_erase (hdp.subset h)) y hy rfl).elim
            · exact h)
        refine ⟨_, List.mem_append_right _ (List.mem_flatMap.mpr ⟨d, hd, List.mem_map_of_mem hc⟩), b :: B', ?_, ?_⟩
        · exact (hB'.cons b).trans hp.symm
        · exact List.Forall₂.cons ((hdp.cons x).trans hpb.symm) hf
      · obtain ⟨c, hc, B', hB', hf⟩ := ih (w := w) (B := B) (by omega) hn hB hne (by
          intro y hy
          rcases List.mem_cons.mp (hs y hy) with rfl | h
          · exact (hxB hy).elim
          · exact h)
        exact ⟨_, List.mem_append_left _ (List.mem_map_of_mem hc), B', hB', hf⟩

end

end Dsrg
