import Verif.Model.Hashing
import Verif.Lemmas.Order

namespace Dsrg

theorem setMember_ok {α K : Type} [DecidableEq K] (hash : α → Int) (eq : α → α → Except PyErr Bool) (key : α → K) (P : α → Prop)
    (heq : ∀ x y, P x → P y → eq x y = .ok (decide (key x = key y))) (hhash : ∀ x y, P x → P y → key x = key y → hash x = hash y)
    (x : α) (hx : P x) (s : List α) (hs : ∀ y ∈ s, P y) :
    setMember hash eq x s = .ok (decide (key x ∈ s.map key)) := by
  induction s with
  | nil => rfl
  | cons y s ih =>
    have hy := hs y List.mem_cons_self
    have ih := ih fun z hz => hs z (List.mem_cons_of_mem _ hz)
    unfold setMember
    by_cases hh : hash y = hash x
    · rw [if_pos hh, heq y x hy hx]
      by_cases hk : key y = key x
      · simp [bind, Except.bind, pure, Except.pure, hk]
      · simp only [hk, decide_false, bind, Except.bind]
        rw [ih]
        have hk' : key x ≠ key y := fun e => hk e.symm
        simp [hk']
    · rw [if_neg hh, ih]
      have hk : key x ≠ key y := fun e => hh (hhash y x hy hx e.symm)
      simp [hk]

theorem pySet_ok {α K : Type} [DecidableEq K] (hash : α → Int) (eq : α → α → Except PyErr Bool) (key : α → K) (P : α → Prop)
    (heq : ∀ x y, P x → P y → eq x y = .ok (decide (key x = key y))) (hhash : ∀ x y, P x → P y → key x = key y → hash x = hash y)
    (l : List α) (hl : ∀ y ∈ l, P y) :
    ∃ s, pySet hash eq l = .ok s ∧ s.Sublist l ∧ (s.map key).Nodup ∧ ∀ x ∈ l, key x ∈ s.map key := by
  have main : ∀ (l s0 : List α), (∀ y ∈ l, P y) → (∀ y ∈ s0, P y) → (s0.map key).Nodup →
      ∃ s1, l.foldlM (setAdd hash eq) s0 = .ok (s0 ++ s1) ∧ s1.Sublist l ∧ ((s0 ++ s1).map key).Nodup ∧
        ∀ x ∈ l, key x ∈ (s0 ++ s1).map key := by
    intro l
    induction l with
    | nil => intro s0 _ _ h0; exact ⟨[], by simp [pure, Except.pure], List.Sublist.refl _, by simpa using h0, by simp⟩
    | cons x l ih =>
      intro s0 hl h0 hn
      have hx := hl x List.mem_cons_self
      have hl' : ∀ y ∈ l, P y := fun y hy => hl y (List.mem_cons_of_mem _ hy)
      rw [List.foldlM_cons]
      unfold setAdd
      rw [setMember_ok hash eq key P heq hhash x hx s0 h0]
      by_cases hm : key x ∈ s0.map key
      · obtain ⟨s1, h1, h2, h3, h4⟩ := ih s0 hl' h0 hn
        refine ⟨s1, ?_, h2.cons _, h3, ?_⟩
        · simp only [hm, decide_true, bind, Except.bind, pure, Except.pure, if_true]
          exact h1
        · intro y hy
          rcases List.mem_cons.mp hy with rfl | hy
          · rw [List.map_append]; exact List.mem_append_left _ hm
          · exact h4 y hy
      · obtain ⟨s1, h1, h2, h3, h4⟩ := ih (s0 ++ [x]) hl'
          (by
            intro y hy
            rcases List.mem_append.mp hy with hy | hy
            · exact h0 y hy
            · rw [List.mem_singleton.mp hy]; exact hx)
          (by
            rw [List.map_append, List.nodup_append]
            refine ⟨hn, by simp, ?_⟩
            intro a ha b hb
            simp only [List.map_cons, List.map_nil, List.mem_singleton] at hb
            subst hb
            rintro rfl
            exact hm ha)
        rw [List.append_assoc] at h1 h3 h4
        refine ⟨[x] ++ s1, ?_, ?_, h3, ?_⟩
        · simp only [hm, decide_false, bind, Except.bind, pure, Except.pure, Bool.false_eq_true, if_false]
          exact h1
        · exact h2.cons_cons _
        · intro y hy
          rcases List.mem_cons.mp hy with rfl | hy
          · simp
          · exact h4 y hy
  obtain ⟨s1, h1, h2, h3, h4⟩ := main l [] hl (by simp) (by simp)
  exact ⟨s1, by simpa [pySet] using h1, h2, by simpa using h3, by simpa using h4⟩

end Dsrg
