import Verif.Model.Indices
import Verif.Lemmas.Sign

/-! Correctness of the merge sort with inversion counting. -/

namespace Dsrg

variable {α : Type} [LinearOrder α]

theorem mergeCount_perm (l r : List α) : (mergeCount l r).1.Perm (l ++ r) := by
  induction l, r using mergeCount.induct with
  | case1 r => simp [mergeCount]
  | case2 x l => simp [mergeCount]
  | case3 x l y r h ih =>
    rw [mergeCount]; simp only [h, if_true]
    exact ih.cons x
  | case4 x l y r h ih =>
    rw [mergeCount]; simp only [h, if_false]
    refine (ih.cons y).trans ?_
    exact List.perm_middle.symm

theorem mergeCount_sorted (l r : List α) (hl : l.Pairwise (· ≤ ·)) (hr : r.Pairwise (· ≤ ·)) :
    (mergeCount l r).1.Pairwise (· ≤ ·) := by
  induction l, r using mergeCount.induct with
  | case1 r => simpa [mergeCount] using hr
  | case2 x l => simpa [mergeCount] using hl
  | case3 x l y r h ih =>
    rw [mergeCount]; simp only [h, if_true]
    rw [List.pairwise_cons] at hl ⊢
    refine ⟨?_, ih hl.2 hr⟩
    intro z hz
    have := (mergeCount_perm l (y :: r)).subset hz
    rcases List.mem_append.1 this with hz | hz
    · exact hl.1 z hz
    · rcases List.mem_cons.1 hz with rfl | hz
      · exact h
      · exact h.trans ((List.pairwise_cons.1 hr).1 z hz)
  | case4 x l y r h ih =>
    rw [mergeCount]; simp only [h, if_false]
    have hyx : y ≤ x := (not_le.1 h).le
    rw [List.pairwise_cons] at hr ⊢
    refine ⟨?_, ih hl hr.2⟩
    intro z hz
    have := (mergeCount_perm (x :: l) r).subset hz
    rcases List.mem_append.1 this with hz | hz
    · rcases List.mem_cons.1 hz with rfl | hz
      · exact hyx
      · exact hyx.trans ((List.pairwise_cons.1 hl).1 z hz)
    · exact hr.1 z hz

theorem mergeCount_count (l r : List α) (hl : l.Pairwise (· ≤ ·)) (hr : r.Pairwise (· ≤ ·)) :
    (mergeCount l r).2 = (l.map fun x => r.countP (· < x)).sum := by
  induction l, r using mergeCount.induct with
  | case1 r => simp [mergeCount]
  | case2 x l => simp [mergeCount]
  | case3 x l y r h ih =>
    rw [mergeCount]; simp only [h, if_true]
    rw [List.pairwise_cons] at hl
    rw [ih hl.2 hr, List.map_cons, List.sum_cons]
    have : (y :: r).countP (· < x) = 0 := by
      rw [List.countP_eq_zero]
      intro z hz
      rcases List.mem_cons.1 hz with rfl | hz
      · simpa using h
      · simpa using h.trans ((List.pairwise_cons.1 hr).1 z hz)
    rw [this, Nat.zero_add]
  | case4 x l y r h ih =>
    rw [mergeCount]; simp only [h, if_false]
    have hyx : y < x := not_le.1 h
    rw [List.pairwise_cons] at hr
    rw [ih hl hr.2]
    have : ∀ z ∈ x :: l, (y :: r).countP (· < z) = r.countP (· < z) + 1 := by
      intro z hz
      have hyz : y < z := by
        rcases List.mem_cons.1 hz with rfl | hz
        · exact hyx
        · exact hyx.trans_le ((List.pairwise_cons.1 hl).1 z hz)
      simp [hyz]
    rw [List.map_congr_left this]
    simp only [List.sum_map_add, List.map_const', List.sum_replicate, smul_eq_mul, mul_one]

theorem sortCount_spec (l : List α) :
    (sortCount l).1.Perm l ∧ (sortCount l).1.Pairwise (· ≤ ·) ∧ (sortCount l).2 = invCount l := by
  induction h : l.length using Nat.strong_induction_on generalizing l with
  | _ n ih =>
    rw [sortCount]
    split
    · rename_i h1
      match l with
      | [] => simp [invCount]
      | [x] => simp [invCount]
      | x :: y :: l => simp at h1
    · rename_i h1
      have hlt : (l.take (l.length / 2)).length < n := by rw [List.length_take]; omega
      have hld : (l.drop (l.length / 2)).length < n := by rw [List.length_drop]; omega
      obtain ⟨p1, s1, c1⟩ := ih _ hlt (l.take (l.length / 2)) rfl
      obtain ⟨p2, s2, c2⟩ := ih _ hld (l.drop (l.length / 2)) rfl
      refine ⟨?_, mergeCount_sorted _ _ s1 s2, ?_⟩
      · refine (mergeCount_perm _ _).trans ((p1.append p2).trans ?_)
        rw [List.take_append_drop]
      · show (sortCount _).2 + (sortCount _).2 + (mergeCount _ _).2 = _
        rw [mergeCount_count _ _ s1 s2, c1, c2]
        conv_rhs => rw [← List.take_append_drop (l.length / 2) l, invCount_append]
        rw [cross_perm_left p1, cross_perm_right p2]

end Dsrg
