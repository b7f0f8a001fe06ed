import Verif.Lemmas.Contract

/-!
Products of blocks whose names can be divided into two sides with one end of every summation in each of them: the sign that
distinguishes such a product from its negative.
-/

namespace Dsrg

/-- A tensor with its side: `true` if the upper half belongs to the first side. -/
abbrev OBlock (α : Type) := Bool × List α × List α

section
variable {α β : Type}

/-- The names of the first side. -/
def sideA (bs : List (OBlock α)) : List α := bs.flatMap fun b => if b.1 then b.2.2 else b.2.1
/-- The names of the second side. -/
def sideB (bs : List (OBlock α)) : List α := bs.flatMap fun b => if b.1 then b.2.1 else b.2.2
/-- All names, the lower half of a block first. -/
def flatBlocks (bs : List (List α × List α)) : List α := bs.flatMap fun b => b.1 ++ b.2
/-- The sizes of the blocks whose upper half belongs to the first side. -/
def blockWeight (bs : List (OBlock α)) : Nat := (bs.map fun b => if b.1 then b.2.1.length else 0).sum
/-- Both halves have the same size. -/
def BalancedBlocks (bs : List (List α × List α)) : Prop := ∀ b ∈ bs, b.1.length = b.2.length

theorem sideA_append (l m : List (OBlock α)) : sideA (l ++ m) = sideA l ++ sideA m := List.flatMap_append
theorem sideB_append (l m : List (OBlock α)) : sideB (l ++ m) = sideB l ++ sideB m := List.flatMap_append
theorem sideA_cons (b : OBlock α) (m : List (OBlock α)) : sideA (b :: m) = (if b.1 then b.2.2 else b.2.1) ++ sideA m := List.flatMap_cons
theorem sideB_cons (b : OBlock α) (m : List (OBlock α)) : sideB (b :: m) = (if b.1 then b.2.1 else b.2.2) ++ sideB m := List.flatMap_cons
theorem flatBlocks_append (l m : List (List α × List α)) : flatBlocks (l ++ m) = flatBlocks l ++ flatBlocks m := List.flatMap_append
theorem flatBlocks_cons (b : List α × List α) (m : List (List α × List α)) : flatBlocks (b :: m) = b.1 ++ b.2 ++ flatBlocks m := List.flatMap_cons
theorem blockWeight_append (l m : List (OBlock α)) : blockWeight (l ++ m) = blockWeight l + blockWeight m := by simp [blockWeight]
theorem blockWeight_cons (b : OBlock α) (m : List (OBlock α)) : blockWeight (b :: m) = (if b.1 then b.2.1.length else 0) + blockWeight m := by
  simp [blockWeight]

theorem sides_perm (bs : List (OBlock α)) : (sideA bs ++ sideB bs).Perm (flatBlocks (bs.map Prod.snd)) := by
  induction bs with
  | nil => rfl
  | cons b bs ih =>
    rw [sideA_cons, sideB_cons, List.map_cons, flatBlocks_cons]
    have h1 : ∀ x y X Y F : List α, (X ++ Y).Perm F → (x ++ X ++ (y ++ Y)).Perm (x ++ y ++ F) := by
      intro x y X Y F h
      simp only [List.append_assoc]
      refine List.Perm.append_left _ ?_
      refine List.Perm.trans ?_ (List.Perm.append_left y h)
      rw [← List.append_assoc, ← List.append_assoc]
      exact List.Perm.append_right _ List.perm_append_comm
    split_ifs
    · refine (h1 _ _ _ _ _ ih).trans (List.Perm.append_right _ List.perm_append_comm)
    · exact h1 _ _ _ _ _ ih

/-- The same blocks with other names. -/
def mapBlock (f : α → β) (b : List α × List α) : List β × List β := (b.1.map f, b.2.map f)

/-- The same with sides. -/
def mapOBlock (f : α → β) (b : OBlock α) : OBlock β := (b.1, mapBlock f b.2)

theorem sideA_map (f : α → β) (bs : List (OBlock α)) : sideA (bs.map (mapOBlock f)) = (sideA bs).map f := by
  induction bs with
  | nil => rfl
  | cons b bs ih =>
    rw [List.map_cons, sideA_cons, sideA_cons, ih, List.map_append]
    cases hb : b.1 <;> simp [mapOBlock, mapBlock, hb]

theorem sideB_map (f : α → β) (bs : List (OBlock α)) : sideB (bs.map (mapOBlock f)) = (sideB bs).map f := by
  induction bs with
  | nil => rfl
  | cons b bs ih =>
    rw [List.map_cons, sideB_cons, sideB_cons, ih, List.map_append]
    cases hb : b.1 <;> simp [mapOBlock, mapBlock, hb]

theorem flatBlocks_map (f : α → β) (bs : List (List α × List α)) : flatBlocks (bs.map (mapBlock f)) = (flatBlocks bs).map f := by
  induction bs with
  | nil => rfl
  | cons b bs ih => rw [List.map_cons, flatBlocks_cons, flatBlocks_cons, ih]; simp [mapBlock]

theorem blockWeight_map (f : α → β) (bs : List (OBlock α)) : blockWeight (bs.map (mapOBlock f)) = blockWeight bs := by
  induction bs with
  | nil => rfl
  | cons b bs ih =>
    rw [List.map_cons, blockWeight_cons, blockWeight_cons, ih]
    simp [mapOBlock, mapBlock]

theorem map_snd_map (f : α → β) (bs : List (OBlock α)) : (bs.map (mapOBlock f)).map Prod.snd = (bs.map Prod.snd).map (mapBlock f) := by
  simp [mapOBlock]

/-- Splitting the sides along a splitting of the blocks. -/
theorem split_blocks {bs : List (OBlock α)} {l m : List (List α × List α)} (h : bs.map Prod.snd = l ++ m) :
    ∃ l' m', bs = l' ++ m' ∧ l'.map Prod.snd = l ∧ m'.map Prod.snd = m := List.map_eq_append_iff.1 h

theorem split_block {bs : List (OBlock α)} {b : List α × List α} {m : List (List α × List α)} (h : bs.map Prod.snd = b :: m) :
    ∃ w m', bs = (w, b) :: m' ∧ m'.map Prod.snd = m := by
  obtain ⟨⟨w, b'⟩, m', rfl, h1, h2⟩ := List.map_eq_cons_iff.1 h
  obtain rfl : b' = b := h1
  exact ⟨w, m', rfl, h2⟩

end

/-! ### Names -/

/-- One end of every summation on each side. -/
def Matched (bs : List (OBlock Nat)) : Prop := ((sideA bs).map (· / 2)).Perm ((sideB bs).map (· / 2))

/-- The sign of a product with sides. -/
def orientedSign (bs : List (OBlock Nat)) (tail : List Nat) : Int :=
  signPow (invCount (flatBlocks (bs.map Prod.snd) ++ tail)) * signPow ((sideA bs).countP (fun n => decide (n % 2 = 0)) + blockWeight bs)

/-- Number of even names. -/
abbrev evens (l : List Nat) : Nat := l.countP fun n => decide (n % 2 = 0)

theorem evens_perm {l m : List Nat} (h : l.Perm m) : evens l = evens m := h.countP_eq _

/-- Exchanging two values in a list. -/
theorem swap_values {x y : Nat} (hxy : x ≠ y) {l : List Nat} (hn : l.Nodup) (hx : x ∈ l) (hy : y ∈ l) :
    signPow (invCount (l.map (Equiv.swap x y))) = - signPow (invCount l) := by
  have main : ∀ (x y : Nat) (p q r : List Nat), (p ++ x :: q ++ y :: r).Nodup →
      signPow (invCount ((p ++ x :: q ++ y :: r).map (Equiv.swap x y))) = - signPow (invCount (p ++ x :: q ++ y :: r)) := by
    intro x y p q r hn
    have hf : ∀ z ∈ p ++ q ++ r, Equiv.swap x y z = z := by
      intro z hz
      apply Equiv.swap_apply_of_ne_of_ne
      · rintro rfl
        have hp : (p ++ z :: q ++ y :: r).Perm (z :: (p ++ q ++ y :: r)) := by
          simp only [List.append_assoc, List.cons_append]; exact List.perm_middle
        rw [hp.nodup_iff, List.nodup_cons] at hn
        apply hn.1
        simp only [List.mem_append, List.mem_cons] at hz ⊢
        tauto
      · rintro rfl
        have hp : (p ++ x :: q ++ z :: r).Perm (z :: (p ++ x :: q ++ r)) := List.perm_middle
        rw [hp.nodup_iff, List.nodup_cons] at hn
        apply hn.1
        simp only [List.mem_append, List.mem_cons] at hz ⊢
        tauto
    have hm : ∀ s : List Nat, (∀ z ∈ s, z ∈ p ++ q ++ r) → s.map (Equiv.swap x y) = s := by
      intro s hs
      conv_rhs => rw [← List.map_id s]
      exact List.map_congr_left fun z hz => hf z (hs z hz)
    have e : (p ++ x :: q ++ y :: r).map (Equiv.swap x y) = p ++ y :: q ++ x :: r := by
      simp only [List.map_append, List.map_cons, Equiv.swap_apply_left, Equiv.swap_apply_right]
      rw [hm p (by simp; tauto), hm q (by simp; tauto), hm r (by simp; tauto)]
    rw [e]
    have hA := antisymmFn_sign (α := Nat)
    -- `p x q y r`, `p q x y r`, `p q y x r`, `p y q x r`
    have h1 := hA.move_one x q p (y :: r) hn
    have hn1 : (p ++ q ++ x :: y :: r).Nodup := by
      refine (List.Perm.nodup_iff ?_).1 hn
      simp only [List.append_assoc, List.cons_append]
      exact List.Perm.append_left _ List.perm_middle.symm
    have h2 := hA (p ++ q) r x y hn1
    have hn2 : (p ++ y :: q ++ x :: r).Nodup := by
      refine (List.Perm.nodup_iff ?_).1 hn1
      simp only [List.append_assoc, List.cons_append]
      refine List.Perm.append_left _ ?_
      refine (List.Perm.append_left _ (List.Perm.swap _ _ _)).trans List.perm_middle
    have h3 := hA.move_one y q p (x :: r) hn2
    simp only [smul_eq_mul] at h1 h3
    beta_reduce at h2
    rw [h1] at h2
    rw [h2] at h3
    have hs := signPow_sq q.length
    have : signPow (invCount (p ++ y :: q ++ x :: r)) = signPow q.length * (signPow q.length * signPow (invCount (p ++ y :: q ++ x :: r))) := by
      rw [← mul_assoc, hs, one_mul]
    rw [this, ← h3, mul_neg, ← mul_assoc, hs, one_mul]
  obtain ⟨p, s, rfl⟩ := List.append_of_mem hx
  rw [List.mem_append, List.mem_cons] at hy
  rcases hy with hy | rfl | hy
  · obtain ⟨p', q, rfl⟩ := List.append_of_mem hy
    rw [Equiv.swap_comm]
    exact main y x p' q s hn
  · exact absurd rfl hxy
  · obtain ⟨q, r, rfl⟩ := List.append_of_mem hy
    have := main x y p q r (by simpa using hn)
    simpa using this

/-- Two sides of names, paired up: the even ones on one side belong to odd ones on the other. -/
theorem evens_matched {P Q : List Nat} (hn : (P ++ Q).Nodup) (h : (P.map (· / 2)).Perm (Q.map (· / 2))) :
    evens P + evens Q = P.length := by
  have hP := (List.nodup_append.1 hn).1
  have hQ := (List.nodup_append.1 hn).2.1
  have hd := (List.nodup_append.1 hn).2.2
  have hlen : P.length = evens P + P.countP (fun n => !decide (n % 2 = 0)) := by
    unfold evens
    rw [List.length_eq_countP_add_countP (fun n => decide (n % 2 = 0))]
    congr 1
    apply List.countP_congr
    simp
  rw [hlen, Nat.add_left_cancel_iff]
  have key : ∀ {P Q : List Nat}, P.Nodup → (∀ a ∈ P, ∀ b ∈ Q, a ≠ b) → (∀ d, d ∈ P.map (· / 2) → d ∈ Q.map (· / 2)) →
      ∀ (c : Nat → Bool), (∀ a b, a / 2 = b / 2 → a ≠ b → c a = true → c b = false) →
      P.countP c ≤ Q.countP (fun n => !c n) := by
    intro P Q hP hd hs c hc
    have hinj : ((P.filter c).map (· / 2)).Nodup := by
      refine List.Nodup.map_on ?_ (hP.filter _)
      intro a ha b hb e
      by_contra hne
      have := hc a b e hne (List.mem_filter.1 ha).2
      rw [(List.mem_filter.1 hb).2] at this
      cases this
    have hsub : ((P.filter c).map (· / 2)) ⊆ ((Q.filter fun n => !c n).map (· / 2)) := by
      intro d hd'
      obtain ⟨a, ha, rfl⟩ := List.mem_map.1 hd'
      obtain ⟨b, hb, e⟩ := List.mem_map.1 (hs (a / 2) (List.mem_map_of_mem (List.mem_filter.1 ha).1))
      refine List.mem_map.2 ⟨b, List.mem_filter.2 ⟨hb, ?_⟩, e⟩
      simp [hc a b e.symm (hd a (List.mem_filter.1 ha).1 b hb) (List.mem_filter.1 ha).2]
    have := (hinj.subperm hsub).length_le
    rw [List.length_map, List.length_map] at this
    rwa [List.countP_eq_length_filter, List.countP_eq_length_filter]
  refine le_antisymm ?_ ?_
  · exact key hQ (fun a ha b hb e => hd b hb a ha e.symm) (fun d hd => h.mem_iff.2 hd) (fun n => decide (n % 2 = 0)) (by
      intro a b e hne ha
      simp only [decide_eq_true_eq, decide_eq_false_iff_not] at ha ⊢
      omega)
  · have := key hP hd (fun d hd => h.mem_iff.1 hd) (fun n => !decide (n % 2 = 0)) (by
      intro a b e hne ha
      simp only [Bool.not_eq_true', decide_eq_false_iff_not, Bool.not_eq_false', decide_eq_true_eq] at ha ⊢
      omega)
    simpa using this

/-- Two ways to choose the sides of the same blocks. -/
theorem two_sides : ∀ {bs cs : List (OBlock Nat)}, bs.map Prod.snd = cs.map Prod.snd → BalancedBlocks (bs.map Prod.snd) →
    ∃ X Y P Q : List Nat, (sideA bs).Perm (X ++ P) ∧ (sideB bs).Perm (Y ++ Q) ∧ (sideA cs).Perm (X ++ Q) ∧ (sideB cs).Perm (Y ++ P) ∧
      ∃ k, blockWeight bs + blockWeight cs = 2 * k + P.length := by
  intro bs
  induction bs with
  | nil =>
    intro cs h _
    obtain rfl : cs = [] := by simpa using h.symm
    exact ⟨[], [], [], [], .refl _, .refl _, .refl _, .refl _, 0, rfl⟩
  | cons b bs ih =>
    intro cs h hb
    obtain ⟨w', cs, rfl, hc⟩ := split_block h.symm
    obtain ⟨w, lo, up⟩ := b
    obtain ⟨X, Y, P, Q, h1, h2, h3, h4, k, hk⟩ := ih hc.symm fun b hb' => hb b (by simp only [List.map_cons, List.mem_cons]; exact Or.inr hb')
    have hl : lo.length = up.length := hb (lo, up) (by simp)
    have front : ∀ (x : List Nat) {S X P : List Nat}, S.Perm (X ++ P) → (x ++ S).Perm ((x ++ X) ++ P) := by
      intro x S X P h; rw [List.append_assoc]; exact h.append_left _
    have back : ∀ (x : List Nat) {S X P : List Nat}, S.Perm (X ++ P) → (x ++ S).Perm (X ++ (x ++ P)) := by
      intro x S X P h
      refine (h.append_left _).trans ?_
      rw [← List.append_assoc, ← List.append_assoc]
      exact List.Perm.append_right _ List.perm_append_comm
    simp only [sideA_cons, sideB_cons, blockWeight_cons]
    cases w <;> cases w' <;> simp only [Bool.false_eq_true, if_false, if_true]
    · exact ⟨lo ++ X, up ++ Y, P, Q, front lo h1, front up h2, front lo h3, front up h4, k, by omega⟩
    · exact ⟨X, Y, lo ++ P, up ++ Q, back lo h1, back up h2, back up h3, back lo h4, k, by rw [List.length_append]; omega⟩
    · exact ⟨X, Y, up ++ P, lo ++ Q, back up h1, back lo h2, back lo h3, back up h4, k, by rw [List.length_append]; omega⟩
    · exact ⟨up ++ X, lo ++ Y, P, Q, front up h1, front lo h2, front up h3, front lo h4, k + lo.length, by omega⟩

/-- The sign does not depend on the choice of the sides. -/
theorem orientedSign_unique {bs cs : List (OBlock Nat)} (h : bs.map Prod.snd = cs.map Prod.snd) (hb : BalancedBlocks (bs.map Prod.snd))
    (hn : (flatBlocks (bs.map Prod.snd)).Nodup) (h1 : Matched bs) (h2 : Matched cs) (tail : List Nat) :
    orientedSign bs tail = orientedSign cs tail := by
  obtain ⟨X, Y, P, Q, p1, p2, p3, p4, k, hk⟩ := two_sides h hb
  have hPQ : (P.map (· / 2)).Perm (Q.map (· / 2)) := by
    have m1 : (((X ++ P).map (· / 2) : List Nat) : Multiset Nat) = ((Y ++ Q).map (· / 2) : List Nat) :=
      Multiset.coe_eq_coe.2 (((p1.map _).symm.trans h1).trans (p2.map _))
    have m2 : (((X ++ Q).map (· / 2) : List Nat) : Multiset Nat) = ((Y ++ P).map (· / 2) : List Nat) :=
      Multiset.coe_eq_coe.2 (((p3.map _).symm.trans h2).trans (p4.map _))
    rw [← Multiset.coe_eq_coe]
    simp only [List.map_append, ← Multiset.coe_add] at m1 m2
    ext d
    have c1 := congrArg (Multiset.count d) m1
    have c2 := congrArg (Multiset.count d) m2
    simp only [Multiset.count_add] at c1 c2
    omega
  have hnd : (P ++ Q).Nodup := by
    have : ((X ++ P) ++ (Y ++ Q)).Nodup := ((p1.append p2).nodup_iff).1 ((sides_perm bs).nodup_iff.2 hn)
    have hp : ((X ++ P) ++ (Y ++ Q)).Perm ((X ++ Y) ++ (P ++ Q)) := by
      simp only [List.append_assoc]
      refine List.Perm.append_left _ ?_
      rw [← List.append_assoc, ← List.append_assoc]
      exact List.Perm.append_right _ List.perm_append_comm
    exact (List.nodup_append.1 (hp.nodup_iff.1 this)).2.1
  have hev := evens_matched hnd hPQ
  unfold orientedSign
  rw [h]
  congr 1
  apply signPow_congr
  have e1 := evens_perm p1
  have e3 := evens_perm p3
  unfold evens at e1 e3 hev
  rw [List.countP_append] at e1 e3
  omega

end Dsrg
