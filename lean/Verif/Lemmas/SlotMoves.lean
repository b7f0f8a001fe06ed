import Verif.Model.Sympy
import Verif.Lemmas.Relabel

/-!
What the generators handed to SymPy do to the slots of one tensor.
-/

namespace Dsrg

theorem permuteSlots_range (f : Nat → Nat) (x : List Nat) :
    permuteSlots ((List.range x.length).map f) x = (List.range x.length).map fun k => x.getD (f k) 0 := by
  simp [permuteSlots, Function.comp_def]

theorem permuteSlots_id (x : List Nat) : permuteSlots (List.range x.length) x = x := by
  apply List.ext_getElem
  · simp [permuteSlots]
  · intro k h1 h2
    simp [permuteSlots, List.getD_eq_getElem?_getD, h2]

theorem permuteSlots_comp (f g : Nat → Nat) (x : List Nat) (n : Nat) (hn : n = x.length) (hg : ∀ k < n, g k < n) :
    permuteSlots ((List.range n).map fun k => f (g k)) x =
      permuteSlots ((List.range n).map g) (permuteSlots ((List.range n).map f) x) := by
  subst hn
  apply List.ext_getElem
  · simp [permuteSlots]
  · intro k h1 h2
    have hk : k < x.length := by simpa [permuteSlots] using h1
    simp [permuteSlots, List.getD_eq_getElem?_getD, hg k hk]

/-- An exchange of neighbours. -/
theorem permuteSlots_swap (pre post : List Nat) (a c n i j : Nat) (hi : i = pre.length) (hj : j = pre.length + 1)
    (hn : n = (pre ++ a :: c :: post).length) :
    permuteSlots (swapArray n i j) (pre ++ a :: c :: post) = pre ++ c :: a :: post := by
  subst hi hj hn
  apply List.ext_getElem
  · simp [permuteSlots, swapArray]
  · intro k h1 h2
    have hk : k < pre.length + (post.length + 1 + 1) := by simpa using h2
    simp only [permuteSlots, swapArray, List.getElem_map, List.getElem_range, List.getD_eq_getElem?_getD]
    rcases lt_trichotomy k pre.length with h | h | h
    · rw [Equiv.swap_apply_of_ne_of_ne (by omega) (by omega)]
      rw [List.getElem_append_left h, List.getElem?_append_left h, List.getElem?_eq_getElem h, Option.getD_some]
    · subst h
      rw [Equiv.swap_apply_left, List.getElem?_append_right (by omega), List.getElem_append_right (by omega)]
      simp
    · rcases Nat.eq_or_lt_of_le h with h | h
      · have : k = pre.length + 1 := by omega
        subst this
        rw [Equiv.swap_apply_right, List.getElem?_append_right (by omega), List.getElem_append_right (by omega)]
        simp
      · rw [Equiv.swap_apply_of_ne_of_ne (by omega) (by omega)]
        rw [List.getElem_append_right (by omega), List.getElem?_append_right (by omega)]
        obtain ⟨m, rfl⟩ : ∃ m, k = pre.length + (m + 2) := ⟨k - pre.length - 2, by omega⟩
        have hm : m < post.length := by omega
        simp only [Nat.add_sub_cancel_left, List.getElem?_cons_succ, List.getElem_cons_succ]
        rw [List.getElem?_eq_getElem hm, Option.getD_some]

theorem swap_lt {n i j : Nat} (hi : i < n) (hj : j < n) : ∀ k < n, Equiv.swap i j k < n := by
  intro k hk
  rw [Equiv.swap_apply_def]
  split_ifs <;> assumption

theorem permuteSlots_signedSwap (pre post : List Nat) (a c s s' n i j : Nat) (hi : i = pre.length) (hj : j = pre.length + 1)
    (hn : n = (pre ++ a :: c :: post).length + 2) :
    permuteSlots (signedSwapArray n i j) (pre ++ a :: c :: post ++ [s, s']) = pre ++ c :: a :: post ++ [s', s] := by
  have hlen : n = (pre ++ a :: c :: post ++ [s, s']).length := by rw [hn]; simp [Nat.add_assoc]
  have hnn : n = pre.length + (post.length + 2) + 2 := by rw [hn]; simp [Nat.add_assoc]
  unfold signedSwapArray
  rw [permuteSlots_comp (fun k => Equiv.swap i j k) (fun k => Equiv.swap (n - 2) (n - 1) k) _ _ hlen (swap_lt (by omega) (by omega))]
  have h1 := permuteSlots_swap pre (post ++ [s, s']) a c n i j hi hj (by rw [hlen]; simp [Nat.add_assoc])
  have e1 : pre ++ a :: c :: post ++ [s, s'] = pre ++ a :: c :: (post ++ [s, s']) := by simp
  rw [e1, show (List.range n).map (fun k => Equiv.swap i j k) = swapArray n i j from rfl, h1]
  have h2 := permuteSlots_swap (pre ++ c :: a :: post) [] s s' n (n - 2) (n - 1) (by simp; omega) (by simp; omega) (by simp; omega)
  have e2 : pre ++ c :: a :: (post ++ [s, s']) = pre ++ c :: a :: post ++ s :: s' :: [] := by simp
  rw [e2, show (List.range n).map (fun k => Equiv.swap (n - 2) (n - 1) k) = swapArray n (n - 2) (n - 1) from rfl, h2]

theorem permuteSlots_halves (lo up : List Nat) (s s' n : Nat) (h1 : lo.length = n) (h2 : up.length = n) :
    permuteSlots (halvesArray n) (lo ++ up ++ [s, s']) = up ++ lo ++ [s, s'] := by
  have e1 : (List.range' n n).map (fun k => (lo ++ up ++ [s, s']).getD k 0) = up := by
    apply List.ext_getElem
    · simp [h2]
    · intro k k1 k2
      simp only [List.getElem_map, List.getElem_range', List.getD_eq_getElem?_getD]
      rw [List.append_assoc, List.getElem?_append_right (by omega), List.getElem?_append_left (by simp; omega)]
      have : n + 1 * k - lo.length = k := by omega
      rw [this, List.getElem?_eq_getElem k2, Option.getD_some]
  have e2 : (List.range n).map (fun k => (lo ++ up ++ [s, s']).getD k 0) = lo := by
    apply List.ext_getElem
    · simp [h1]
    · intro k k1 k2
      simp only [List.getElem_map, List.getElem_range, List.getD_eq_getElem?_getD]
      rw [List.append_assoc, List.getElem?_append_left k2, List.getElem?_eq_getElem k2, Option.getD_some]
  have e3 : (lo ++ up ++ [s, s']).getD (2 * n) 0 = s := by
    rw [List.getD_eq_getElem?_getD, List.getElem?_append_right (by simp; omega)]
    have : 2 * n - (lo ++ up).length = 0 := by simp; omega
    rw [this]; rfl
  have e4 : (lo ++ up ++ [s, s']).getD (2 * n + 1) 0 = s' := by
    rw [List.getD_eq_getElem?_getD, List.getElem?_append_right (by simp; omega)]
    have : 2 * n + 1 - (lo ++ up).length = 1 := by simp; omega
    rw [this]; rfl
  unfold permuteSlots halvesArray
  rw [List.map_append, List.map_append, e1, e2]
  simp only [List.map_cons, List.map_nil, e3, e4]

/-- The moves of one tensor with `n` lower slots followed by `n` upper slots; the flag says whether the sign changes. -/
inductive BlockMove (antisym hermitian : Bool) (n : Nat) : List Nat → List Nat → Bool → Prop
  | stay (b : List Nat) : BlockMove antisym hermitian n b b false
  | lower (pre post up : List Nat) (a c : Nat) : antisym = true → (pre ++ a :: c :: post).length = n → up.length = n →
      BlockMove antisym hermitian n (pre ++ a :: c :: post ++ up) (pre ++ c :: a :: post ++ up) true
  | upper (lo pre post : List Nat) (a c : Nat) : antisym = true → lo.length = n → (pre ++ a :: c :: post).length = n →
      BlockMove antisym hermitian n (lo ++ (pre ++ a :: c :: post)) (lo ++ (pre ++ c :: a :: post)) true
  | pairs (pre post pre' post' : List Nat) (a c a' c' : Nat) : antisym = false → (pre ++ a :: c :: post).length = n →
      (pre' ++ a' :: c' :: post').length = n → pre.length = pre'.length →
      BlockMove antisym hermitian n (pre ++ a :: c :: post ++ (pre' ++ a' :: c' :: post'))
        (pre ++ c :: a :: post ++ (pre' ++ c' :: a' :: post')) false
  | halves (lo up : List Nat) : hermitian = true → lo.length = n → up.length = n →
      BlockMove antisym hermitian n (lo ++ up) (up ++ lo) false

theorem split_two (l : List Nat) (i : Nat) (h : i + 1 < l.length) :
    ∃ pre a c post, l = pre ++ a :: c :: post ∧ pre.length = i := by
  refine ⟨l.take i, l[i], l[i + 1], l.drop (i + 2), ?_, by simp; omega⟩
  rw [← List.drop_eq_getElem_cons, ← List.drop_eq_getElem_cons, List.take_append_drop]

theorem append_two_inj {b b' : List Nat} {s s' r r' : Nat} (h : b ++ [s, s'] = b' ++ [r, r']) : b = b' ∧ s = r ∧ s' = r' := by
  have := List.append_inj' h (by simp)
  simp at this
  exact ⟨this.1, this.2.1, this.2.2⟩

theorem asymGens_move {n : Nat} {hermitian : Bool} {p b b' : List Nat} {s s' r r' : Nat} (hp : p ∈ asymGens n n hermitian)
    (hb : b.length = n + n) (h : permuteSlots p (b ++ [s, s']) = b' ++ [r, r']) :
    (r = s ∧ r' = s' ∧ BlockMove true hermitian n b b' false) ∨ (r = s' ∧ r' = s ∧ BlockMove true hermitian n b b' true) := by
  obtain ⟨lo, up, rfl, hlo⟩ : ∃ lo up, b = lo ++ up ∧ lo.length = n := ⟨b.take n, b.drop n, (List.take_append_drop _ _).symm, by simp; omega⟩
  have hup : up.length = n := by rw [List.length_append] at hb; omega
  unfold asymGens at hp
  rw [List.mem_append, List.mem_append] at hp
  rcases hp with (hp | hp) | hp
  · obtain ⟨i, hi, rfl⟩ := List.mem_map.1 hp
    rw [List.mem_range] at hi
    obtain ⟨pre, a, c, post, rfl, hpre⟩ := split_two lo i (by omega)
    have key := permuteSlots_signedSwap pre (post ++ up) a c s s' (n + n + 2) i (i + 1) hpre.symm (by omega)
      (by simp at hlo ⊢; omega)
    have e : pre ++ a :: c :: (post ++ up) = pre ++ a :: c :: post ++ up := by simp
    rw [e, h] at key
    obtain ⟨h1, h2, h3⟩ := append_two_inj key
    right
    refine ⟨h2, h3, ?_⟩
    rw [h1, show pre ++ c :: a :: (post ++ up) = pre ++ c :: a :: post ++ up by simp]
    exact BlockMove.lower pre post up a c rfl hlo hup
  · obtain ⟨i, hi, rfl⟩ := List.mem_map.1 hp
    rw [List.mem_range] at hi
    obtain ⟨pre, a, c, post, rfl, hpre⟩ := split_two up i (by omega)
    have key := permuteSlots_signedSwap (lo ++ pre) post a c s s' (n + n + 2) (n + i) (n + i + 1) (by simp; omega) (by simp; omega)
      (by simp at hup ⊢; omega)
    have e : lo ++ pre ++ a :: c :: post = lo ++ (pre ++ a :: c :: post) := by simp
    rw [e, h] at key
    obtain ⟨h1, h2, h3⟩ := append_two_inj key
    right
    refine ⟨h2, h3, ?_⟩
    rw [h1, show lo ++ pre ++ c :: a :: post = lo ++ (pre ++ c :: a :: post) by simp]
    exact BlockMove.upper lo pre post a c rfl hlo hup
  · split_ifs at hp with hh
    · rw [List.mem_singleton] at hp
      subst hp
      rw [permuteSlots_halves lo up s s' n hlo hup] at h
      obtain ⟨h1, h2, h3⟩ := append_two_inj h
      left
      refine ⟨h2.symm, h3.symm, ?_⟩
      rw [← h1]
      exact BlockMove.halves lo up hh hlo hup
    · simp at hp

theorem symGens_move {n : Nat} {hermitian : Bool} {p b b' : List Nat} {s s' r r' : Nat} (hp : p ∈ symGens n hermitian)
    (hb : b.length = n + n) (h : permuteSlots p (b ++ [s, s']) = b' ++ [r, r']) :
    r = s ∧ r' = s' ∧ BlockMove false hermitian n b b' false := by
  obtain ⟨lo, up, rfl, hlo⟩ : ∃ lo up, b = lo ++ up ∧ lo.length = n := ⟨b.take n, b.drop n, (List.take_append_drop _ _).symm, by simp; omega⟩
  have hup : up.length = n := by rw [List.length_append] at hb; omega
  unfold symGens at hp
  rw [List.mem_append] at hp
  rcases hp with hp | hp
  · obtain ⟨i, hi, rfl⟩ := List.mem_map.1 hp
    rw [List.mem_range] at hi
    obtain ⟨pre, a, c, post, rfl, hpre⟩ := split_two lo i (by omega)
    obtain ⟨pre', a', c', post', rfl, hpre'⟩ := split_two up i (by omega)
    have hlen : 2 * n + 2 = (pre ++ a :: c :: post ++ (pre' ++ a' :: c' :: post') ++ [s, s']).length := by
      rw [List.length_append, List.length_append, hlo, hup]; simp; omega
    rw [permuteSlots_comp (fun k => Equiv.swap i (i + 1) k) (fun k => Equiv.swap (i + n) (i + 1 + n) k) _ _ hlen
      (swap_lt (by omega) (by omega))] at h
    have k1 := permuteSlots_swap pre (post ++ (pre' ++ a' :: c' :: post') ++ [s, s']) a c (2 * n + 2) i (i + 1) hpre.symm (by omega)
      (by rw [hlen]; simp [Nat.add_assoc])
    have e1 : pre ++ a :: c :: post ++ (pre' ++ a' :: c' :: post') ++ [s, s'] =
      pre ++ a :: c :: (post ++ (pre' ++ a' :: c' :: post') ++ [s, s']) := by simp
    rw [e1, show (List.range (2 * n + 2)).map (fun k => Equiv.swap i (i + 1) k) = swapArray (2 * n + 2) i (i + 1) from rfl, k1] at h
    have k2 := permuteSlots_swap (pre ++ c :: a :: post ++ pre') (post' ++ [s, s']) a' c' (2 * n + 2) (i + n) (i + 1 + n)
      (by simp at hlo ⊢; omega) (by simp at hlo ⊢; omega) (by rw [hlen]; simp [Nat.add_assoc])
    have e2 : pre ++ c :: a :: (post ++ (pre' ++ a' :: c' :: post') ++ [s, s']) =
      pre ++ c :: a :: post ++ pre' ++ a' :: c' :: (post' ++ [s, s']) := by simp
    rw [e2, show (List.range (2 * n + 2)).map (fun k => Equiv.swap (i + n) (i + 1 + n) k) =
      swapArray (2 * n + 2) (i + n) (i + 1 + n) from rfl, k2] at h
    have e3 : pre ++ c :: a :: post ++ pre' ++ c' :: a' :: (post' ++ [s, s']) =
      (pre ++ c :: a :: post ++ (pre' ++ c' :: a' :: post')) ++ [s, s'] := by simp
    rw [e3] at h
    obtain ⟨h1, h2, h3⟩ := append_two_inj h
    refine ⟨h2.symm, h3.symm, ?_⟩
    rw [← h1]
    exact BlockMove.pairs pre post pre' post' a c a' c' rfl hlo hup (by omega)
  · rw [List.mem_singleton] at hp
    subst hp
    split_ifs at h with hh
    · rw [permuteSlots_halves lo up s s' n hlo hup] at h
      obtain ⟨h1, h2, h3⟩ := append_two_inj h
      refine ⟨h2.symm, h3.symm, ?_⟩
      rw [← h1]
      exact BlockMove.halves lo up hh hlo hup
    · have := permuteSlots_id (lo ++ up ++ [s, s'])
      have e : (lo ++ up ++ [s, s']).length = 2 * n + 2 := by simp; omega
      rw [e, h] at this
      obtain ⟨h1, h2, h3⟩ := append_two_inj this
      refine ⟨h2, h3, ?_⟩
      rw [h1]; exact BlockMove.stay _

/-- What a generator of the group of a pair of label lists does. -/
theorem bsgs_move {x : IndicesPair} {hermitian noSym : Bool} {gens : List (List Nat)} (hg : x.bsgs hermitian noSym = .ok gens)
    {n : Nat} (hu : x.nUpper = n) (hl : x.nLower = n) {p b b' : List Nat} {s s' r r' : Nat} (hp : p ∈ gens) (hb : b.length = n + n)
    (h : permuteSlots p (b ++ [s, s']) = b' ++ [r, r']) :
    (noSym = true ∧ r = s ∧ r' = s' ∧ b' = b) ∨ (noSym = false ∧
      ((r = s ∧ r' = s' ∧ BlockMove x.upper.ty.isAntisym hermitian n b b' false) ∨
        (r = s' ∧ r' = s ∧ BlockMove x.upper.ty.isAntisym hermitian n b b' true))) := by
  unfold IndicesPair.bsgs at hg
  rw [hu, hl] at hg
  by_cases h0 : x.size = 0
  · rw [if_pos h0] at hg; simp at hg
  rw [if_neg h0] at hg
  by_cases h1 : noSym = true
  · left
    rw [if_pos h1] at hg
    have hnb : x.nBody = .ok n := by simp [IndicesPair.nBody, hu, hl]
    rw [hnb] at hg
    simp only [bind, Except.bind, pure, Except.pure, Except.ok.injEq] at hg
    subst hg
    rw [List.mem_singleton] at hp
    subst hp
    have := permuteSlots_id (b ++ [s, s'])
    have e : (b ++ [s, s']).length = 2 * n + 2 := by simp; omega
    rw [e, h] at this
    obtain ⟨h1', h2, h3⟩ := append_two_inj this
    exact ⟨h1, h2, h3, h1'⟩
  · right
    refine ⟨by simpa using h1, ?_⟩
    rw [if_neg h1] at hg
    by_cases h2 : x.upper.ty.isAntisym = false
    · rw [if_pos h2, if_neg (by simp)] at hg
      injection hg with hg
      subst hg
      rw [h2]
      exact Or.inl (symGens_move hp hb h)
    · rw [if_neg h2] at hg
      have h2' : x.upper.ty.isAntisym = true := by simpa using h2
      rw [h2']
      by_cases h3 : hermitian = false
      · rw [if_pos h3] at hg
        split_ifs at hg with h4
        injection hg with hg
        subst hg
        rw [h3]
        exact asymGens_move hp hb h
      · have h3' : hermitian = true := by simpa using h3
        rw [if_neg h3, if_neg (by simp)] at hg
        injection hg with hg
        subst hg
        rw [h3']
        exact asymGens_move hp hb h

end Dsrg
