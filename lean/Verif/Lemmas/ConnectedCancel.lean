import Mathlib.Data.Nat.Lattice
import Verif.Lemmas.ConnectedRows

/-!
The contractions of a nested commutator that do not connect all strings, or connect them without a pair, cancel.
-/

namespace Dsrg

section
variable {β M : Type} [AddCommGroup M]

/-- The signed words of a nested commutator, the outermost factor first. -/
def sides (h : β) : List β → List (ℤ × List β)
  | [] => [(1, [h])]
  | a :: r => (sides h r).flatMap fun p => [(p.1, p.2 ++ [a]), (- p.1, a :: p.2)]

theorem connectedSides_perm (h : β) {as : List β} {p : ℤ × List β} (hp : p ∈ sides h as) : p.2.Perm (h :: as) := by
  induction as generalizing p with
  | nil => simp [sides] at hp; subst hp; exact List.Perm.refl _
  | cons a r ih =>
    simp only [sides, List.mem_flatMap, List.mem_cons, List.not_mem_nil, or_false] at hp
    obtain ⟨q, hq, rfl | rfl⟩ := hp
    · exact (List.perm_append_comm.trans ((ih hq).cons a)).trans (List.Perm.swap h a r)
    · exact ((ih hq).cons a).trans (List.Perm.swap h a r)

theorem sides_cons_sum (h a : β) (r : List β) (f : List β → M) :
    ((sides h (a :: r)).map fun p => p.1 • f p.2).sum =
      ((sides h r).map fun p => p.1 • (f (p.2 ++ [a]) - f (a :: p.2))).sum := by
  rw [sides, sum_flatMap_value]
  congr 1
  refine List.map_congr_left fun p _ => ?_
  simp only [List.map_cons, List.map_nil, List.sum_cons, List.sum_nil, add_zero, neg_smul, smul_sub]
  abel

/-- A function that does not see on which side of the inner factors one factor stands. -/
theorem sides_cancel (h a : β) (post : List β) : ∀ (pre : List β) (f : List β → M),
    (∀ l r, (l ++ r).Perm pre → ∀ p ∈ sides h post, f (l ++ (a :: p.2) ++ r) = f (l ++ (p.2 ++ [a]) ++ r)) →
    ((sides h (pre ++ a :: post)).map fun p => p.1 • f p.2).sum = 0
  | [], f, hf => by
    rw [List.nil_append, sides_cons_sum]
    refine List.sum_eq_zero fun x hx => ?_
    obtain ⟨p, hp, rfl⟩ := List.mem_map.mp hx
    have := hf [] [] (List.Perm.refl _) p hp
    simp only [List.nil_append, List.append_nil] at this
    rw [this, sub_self, smul_zero]
  | x :: pre, f, hf => by
    rw [List.cons_append, sides_cons_sum]
    refine sides_cancel h a post pre (fun l => f (l ++ [x]) - f (x :: l)) fun l r hlr p hp => ?_
    have h1 := hf l (r ++ [x]) (by
      rw [← List.append_assoc]
      exact (List.perm_append_comm (l₂ := [x])).trans (hlr.cons x)) p hp
    have h2 := hf (x :: l) r (hlr.cons x) p hp
    simp only [List.append_assoc, List.cons_append] at h1 h2 ⊢
    rw [h1, h2]

end

section
variable {α : Type}

/-- A set of strings that no block leaves. -/
def ClosedUnder (key : α → ℕ) (B : List (List α)) (S : Set ℕ) : Prop := ∀ b ∈ B, ∀ x ∈ b, ∀ y ∈ b, key x ∈ S → key y ∈ S

/-- The blocks connect the strings with the given keys. -/
def ConnB (key : α → ℕ) (keys : List ℕ) (B : List (List α)) : Prop :=
  ∀ S : Set ℕ, ClosedUnder key B S → (∃ k ∈ keys, k ∈ S) → ∀ k ∈ keys, k ∈ S

/-- The blocks connect the strings, and one of them is a pair. -/
def PairConnB (key : α → ℕ) (keys : List ℕ) (B : List (List α)) : Prop := ConnB key keys B ∧ ∃ b ∈ B, b.length = 2

theorem closedUnder_key {key : α → ℕ} {B C : List (List α)} (h : blocksKey B = blocksKey C) {S : Set ℕ} (hS : ClosedUnder key B S) :
    ClosedUnder key C S := by
  intro c hc x hx y hy hxS
  obtain ⟨b, hb, hp⟩ := blocksKey_mem h.symm hc
  exact hS b hb x (hp.subset hx) y (hp.subset hy) hxS

theorem connB_key {key : α → ℕ} {keys : List ℕ} {B C : List (List α)} (h : blocksKey B = blocksKey C) (hB : ConnB key keys B) :
    ConnB key keys C := fun S hS => hB S (closedUnder_key h.symm hS)

theorem pairConnB_key {key : α → ℕ} {keys : List ℕ} {B C : List (List α)} (h : blocksKey B = blocksKey C) :
    PairConnB key keys B ↔ PairConnB key keys C := by
  have : ∀ {B C : List (List α)}, blocksKey B = blocksKey C → PairConnB key keys B → PairConnB key keys C := by
    rintro B C h ⟨h1, b, hb, hl⟩
    obtain ⟨c, hc, hp⟩ := blocksKey_mem h hb
    exact ⟨connB_key h h1, c, hc, by rw [← hp.length_eq, hl]⟩
  exact ⟨this h, this h.symm⟩

/-- The strings that some closed set with the first string leaves out. -/
def unreached (key : α → ℕ) (B : List (List α)) : Set ℕ := {j | ∃ S, ClosedUnder key B S ∧ 0 ∈ S ∧ j ∉ S}

theorem unreached_key {key : α → ℕ} {B C : List (List α)} (h : blocksKey B = blocksKey C) : unreached key B = unreached key C := by
  ext j
  exact ⟨fun ⟨S, h1, h2⟩ => ⟨S, closedUnder_key h h1, h2⟩, fun ⟨S, h1, h2⟩ => ⟨S, closedUnder_key h.symm h1, h2⟩⟩

open Classical in
/-- The string that can be moved to the other side of the inner strings. -/
noncomputable def movable (key : α → ℕ) (keys : List ℕ) (B : List (List α)) : ℕ :=
  if ConnB key keys B then 1 else sInf (unreached key B)

theorem movable_key {key : α → ℕ} {keys : List ℕ} {B C : List (List α)} (h : blocksKey B = blocksKey C) :
    movable key keys B = movable key keys C := by
  have : ConnB key keys B ↔ ConnB key keys C := ⟨connB_key h, connB_key h.symm⟩
  unfold movable
  rw [unreached_key h]
  by_cases hc : ConnB key keys B
  · rw [if_pos hc, if_pos (this.mp hc)]
  · rw [if_neg hc, if_neg fun h => hc (this.mpr h)]

theorem exists_unreached {key : α → ℕ} {keys : List ℕ} {B : List (List α)} (h : ¬ ConnB key keys B) : ∃ j ∈ keys, j ∈ unreached key B := by
  unfold ConnB at h
  push Not at h
  obtain ⟨S, hS, ⟨k, hk, hkS⟩, k', hk', hkS'⟩ := h
  by_cases h0 : 0 ∈ S
  · exact ⟨k', hk', S, hS, h0, hkS'⟩
  · refine ⟨k, hk, Sᶜ, fun b hb x hx y hy hxS hyS => hxS (hS b hb y hy x hx hyS), h0, fun h => h hkS⟩

theorem movable_pos {key : α → ℕ} {keys : List ℕ} {B : List (List α)} : movable key keys B ≠ 0 ∨ ConnB key keys B := by
  by_cases h : ConnB key keys B
  · exact Or.inr h
  · left
    obtain ⟨j, -, hj⟩ := exists_unreached h
    have := Nat.sInf_mem ⟨j, hj⟩
    rw [movable, if_neg h]
    intro e
    rw [e] at this
    obtain ⟨S, -, h0, h0'⟩ := this
    exact h0' h0

/-- No pair joins the movable string and a string with a smaller key. -/
theorem movable_cross {key : α → ℕ} {keys : List ℕ} {B : List (List α)} (h : ¬ PairConnB key keys B) {b : List α} (hb : b ∈ B)
    (hl : b.length = 2) {x y : α} (hx : x ∈ b) (hy : y ∈ b) (hkx : key x = movable key keys B) : ¬ key y < key x := by
  intro hlt
  have hc : ¬ ConnB key keys B := fun hc => h ⟨hc, b, hb, hl⟩
  obtain ⟨j, -, hj⟩ := exists_unreached hc
  have hmem := Nat.sInf_mem ⟨j, hj⟩
  rw [movable, if_neg hc] at hkx
  obtain ⟨S, h1, h2, h3⟩ := hmem
  have hy' : key y ∉ unreached key B := Nat.notMem_of_lt_sInf (hkx ▸ hlt)
  have hyS : key y ∈ S := by
    by_contra hn
    exact hy' ⟨S, h1, h2, hn⟩
  exact h3 (hkx ▸ h1 b hb y hy x hx hyS)

end

section
variable {L R M : Type} [CommRing R] [AddCommGroup M] [Module R M]

/-- The operators of a string with the key of the string and their positions. -/
def tagAt (k : ℕ) (s : List L) : List (ℕ × ℕ × L) := s.zipIdx.map fun x => (k, x.2, x.1)

theorem tagAt_key {k : ℕ} {s : List L} {x : ℕ × ℕ × L} (h : x ∈ tagAt k s) : x.1 = k := by
  obtain ⟨y, -, rfl⟩ := List.mem_map.mp h
  rfl

theorem tagAt_nodup (k : ℕ) (s : List L) : (tagAt k s).Nodup := by
  have h : ((tagAt k s).map fun x => x.2.1).Nodup := by
    have : (tagAt k s).map (fun x => x.2.1) = List.range' 0 s.length := by
      rw [tagAt, List.map_map, ← List.zipIdx_map_snd 0 s]
      rfl
    rw [this]
    exact List.nodup_range'
  exact h.of_map

@[simp] theorem tagAt_length (k : ℕ) (s : List L) : (tagAt k s).length = s.length := by simp [tagAt]

@[simp] theorem tagAt_letters (k : ℕ) (s : List L) : (tagAt k s).map (fun x => x.2.2) = s := by
  rw [tagAt, List.map_map]
  exact List.zipIdx_map_fst 0 s

/-- The word of a list of strings with keys. -/
def tagWord (l : List (ℕ × List L)) : List (ℕ × ℕ × L) := l.flatMap fun q => tagAt q.1 q.2

theorem tagWord_nodup {l : List (ℕ × List L)} (h : (l.map Prod.fst).Nodup) : (tagWord l).Nodup := by
  unfold tagWord
  rw [List.nodup_flatMap]
  refine ⟨fun q _ => tagAt_nodup _ _, ?_⟩
  refine (List.pairwise_map.mp h).imp fun {q q'} hne => ?_
  exact List.disjoint_left.mpr fun x hx hx' => hne ((tagAt_key hx).symm.trans (tagAt_key hx'))

/-- Strings numbered from the innermost factor of a nested commutator. -/
def numbered : List (List L) → List (ℕ × List L)
  | [] => []
  | s :: r => (r.length + 1, s) :: numbered r

theorem numbered_keys (as : List (List L)) : (numbered as).map Prod.fst = (List.range' 1 as.length).reverse := by
  induction as with
  | nil => rfl
  | cons s r ih =>
    rw [numbered, List.map_cons, ih, List.length_cons, List.range'_concat, List.reverse_append]
    simp [Nat.add_comm]

theorem numbered_mem {as : List (List L)} {q : ℕ × List L} (h : q ∈ numbered as) : q.2 ∈ as ∧ 1 ≤ q.1 ∧ q.1 ≤ as.length := by
  induction as with
  | nil => simp [numbered] at h
  | cons s r ih =>
    rcases List.mem_cons.mp h with rfl | h
    · simp
    · obtain ⟨h1, h2, h3⟩ := ih h
      exact ⟨List.mem_cons_of_mem _ h1, h2, by simp; omega⟩

theorem numbered_split {as : List (List L)} {i : ℕ} (h1 : 1 ≤ i) (h2 : i ≤ as.length) :
    ∃ pre s post, numbered as = pre ++ (i, s) :: numbered post ∧ s ∈ as ∧ post.length + 1 = i := by
  induction as with
  | nil => simp at h2; omega
  | cons s r ih =>
    by_cases hi : i = r.length + 1
    · subst hi
      exact ⟨[], s, r, rfl, List.mem_cons_self, rfl⟩
    · obtain ⟨pre, t, post, e, ht, hl⟩ := ih (by simp at h2; omega)
      exact ⟨(r.length + 1, s) :: pre, t, post, by rw [numbered, e]; rfl, List.mem_cons_of_mem _ ht, hl⟩

theorem numbered_keys_nodup (s0 : List L) (as : List (List L)) : (((0, s0) :: numbered as).map Prod.fst).Nodup := by
  rw [List.map_cons, numbered_keys, List.nodup_cons]
  refine ⟨?_, List.nodup_reverse.mpr List.nodup_range'⟩
  simp

theorem sublist_pair_move {α : Type} {l a b r s : List α} (hs : s.Sublist (l ++ (a ++ b) ++ r)) (hl : s.length = 2)
    (h : ∀ x ∈ a, ∀ y ∈ b, x ∈ s → y ∈ s → False) : s.Sublist (l ++ (b ++ a) ++ r) := by
  obtain ⟨s', s4, rfl, h', h4⟩ := List.sublist_append_iff.mp hs
  obtain ⟨s1, s23, rfl, h1, h23⟩ := List.sublist_append_iff.mp h'
  obtain ⟨s2, s3, rfl, h2, h3⟩ := List.sublist_append_iff.mp h23
  have : s2 ++ s3 = s3 ++ s2 := by
    cases s2 with
    | nil => simp
    | cons x s2 => cases s3 with
      | nil => simp
      | cons y s3 =>
        exact (h x (h2.subset List.mem_cons_self) y (h3.subset List.mem_cons_self) (by simp) (by simp)).elim
  rw [this]
  exact (h1.append (h3.append h2)).append h4

/-- The disconnected contractions, and those without a pair, cancel in a nested commutator. -/
theorem sides_rowsSum {K : List (ℕ × ℕ × L) → R} {N : List (ℕ × ℕ × L) → M}
    (hodd : ∀ b, b.length % 2 = 1 → K b = 0)
    (hK : ∀ [DecidableEq (ℕ × ℕ × L)], ∀ b b', b.Nodup → b.Perm b' → 3 ≤ b.length → K b = (relSign b b' : R) * K b')
    (hN : AntisymmFn N) (s0 : List L) {as : List (List L)} (hne : as ≠ []) (heven : ∀ s ∈ as, 2 ∣ s.length) :
    ((sides (0, s0) (numbered as)).map fun p =>
      p.1 • rowsSum K N (fun B => ¬ PairConnB Prod.fst (List.range (as.length + 1)) B) (tagWord p.2)).sum = 0 := by
  classical
  let keys := List.range (as.length + 1)
  let mv : List (List (ℕ × ℕ × L)) → ℕ := movable Prod.fst keys
  have hpos := List.length_pos_iff.mpr hne
  have hlt : ∀ B, mv B < as.length + 1 := by
    intro B
    simp only [mv, movable]
    split_ifs with hc
    · omega
    · obtain ⟨j, hj, hju⟩ := exists_unreached hc
      exact Nat.lt_of_le_of_lt (Nat.sInf_le hju) (List.mem_range.mp hj)
  have e1 : ∀ p : ℤ × List (ℕ × List L), p.1 • rowsSum K N (fun B => ¬ PairConnB Prod.fst keys B) (tagWord p.2) =
      ∑ i ∈ Finset.range (as.length + 1), p.1 • rowsSum K N (fun B => ¬ PairConnB Prod.fst keys B ∧ mv B = i) (tagWord p.2) := by
    intro p
    rw [rowsSum_index K N _ _ mv (as.length + 1) fun c _ _ => hlt _, Finset.smul_sum]
  simp only [keys] at e1
  simp only [e1]
  have comm : ∀ (l : List (ℤ × List (ℕ × List L))) (f : ℕ → ℤ × List (ℕ × List L) → M),
      (l.map fun p => ∑ i ∈ Finset.range (as.length + 1), f i p).sum = ∑ i ∈ Finset.range (as.length + 1), (l.map (f i)).sum := by
    intro l f
    induction l with
    | nil => simp
    | cons p l ih => simp [ih, Finset.sum_add_distrib]
  rw [comm]
  refine Finset.sum_eq_zero fun i hi => ?_
  rcases Nat.eq_zero_or_pos i with rfl | hi0
  · refine List.sum_eq_zero fun x hx => ?_
    obtain ⟨p, -, rfl⟩ := List.mem_map.mp hx
    have : rowsSum K N (fun B => ¬ PairConnB Prod.fst keys B ∧ mv B = 0) (tagWord p.2) = 0 := by
      rw [rowsSum_ite]
      refine List.sum_eq_zero fun x hx => ?_
      obtain ⟨c, -, rfl⟩ := List.mem_map.mp hx
      refine if_neg fun h => ?_
      have h0 := h.2
      simp only [mv, movable] at h0
      split_ifs at h0 with hc
      rcases movable_pos (key := Prod.fst) (keys := keys) (B := c.2.1) with h' | h'
      · exact h' (by rw [movable, if_neg hc]; exact h0)
      · exact hc h'
    show p.1 • rowsSum K N (fun B => ¬ PairConnB Prod.fst keys B ∧ mv B = 0) (tagWord p.2) = 0
    rw [this, smul_zero]
  · obtain ⟨pre, s, post, e, hs, hpl⟩ := numbered_split hi0 (Nat.lt_succ_iff.mp (Finset.mem_range.mp hi))
    rw [e]
    refine sides_cancel (0, s0) (i, s) (numbered post) pre
      (fun l => rowsSum K N (fun B => ¬ PairConnB Prod.fst keys B ∧ mv B = i) (tagWord l)) fun l r hlr p hp => ?_
    have hperm := connectedSides_perm _ hp
    have hall : (l ++ ((i, s) :: p.2) ++ r).Perm ((0, s0) :: numbered as) := by
      rw [e]
      have q1 : (l ++ ((i, s) :: p.2) ++ r).Perm ((l ++ r) ++ ((i, s) :: p.2)) := by
        rw [List.append_assoc, List.append_assoc]
        exact List.Perm.append_left _ List.perm_append_comm
      have q2 : ((l ++ r) ++ ((i, s) :: p.2)).Perm (pre ++ ((i, s) :: (0, s0) :: numbered post)) := hlr.append (hperm.cons _)
      refine q1.trans (q2.trans ?_)
      have q3 : ((i, s) :: (0, s0) :: numbered post).Perm ((0, s0) :: (i, s) :: numbered post) := List.Perm.swap _ _ _
      exact (List.Perm.append_left pre q3).trans List.perm_middle
    have hnd : (tagWord (l ++ ((i, s) :: p.2) ++ r)).Nodup :=
      tagWord_nodup ((hall.map Prod.fst).nodup_iff.mpr (numbered_keys_nodup s0 as))
    have w1 : tagWord (l ++ ((i, s) :: p.2) ++ r) = tagWord l ++ (tagAt i s ++ tagWord p.2) ++ tagWord r := by
      simp [tagWord]
    have w2 : tagWord (l ++ (p.2 ++ [(i, s)]) ++ r) = tagWord l ++ (tagWord p.2 ++ tagAt i s) ++ tagWord r := by
      simp [tagWord]
    have hp' : (tagWord (l ++ ((i, s) :: p.2) ++ r)).Perm (tagWord (l ++ (p.2 ++ [(i, s)]) ++ r)) := by
      rw [w1, w2]
      exact List.Perm.append_right _ (List.Perm.append_left _ List.perm_append_comm)
    have hmove := rowsSum_perm (P := fun B => ¬ PairConnB Prod.fst keys B ∧ mv B = i) hnd hp' hodd hK hN
      (fun B B' hB => by rw [pairConnB_key hB, show mv B = mv B' from movable_key hB]) (by
        rintro B ⟨hB, hmv⟩ b hb hl hsub
        rw [w1] at hsub
        rw [w2]
        refine sublist_pair_move hsub hl fun x hx y hy hxb hyb => ?_
        have hxk := tagAt_key hx
        obtain ⟨q, hq, hyq⟩ := List.mem_flatMap.mp hy
        have hyk := tagAt_key hyq
        refine movable_cross hB hb hl hxb hyb (hxk.trans hmv.symm) ?_
        rw [hxk, hyk]
        rcases List.mem_cons.mp (hperm.subset hq) with rfl | hq
        · exact hi0
        · have := (numbered_mem hq).2.2
          omega)
    have hone : relSign (tagWord (l ++ ((i, s) :: p.2) ++ r)) (tagWord (l ++ (p.2 ++ [(i, s)]) ++ r)) = 1 := by
      have hF := antisymmFn_relSign (tagWord (l ++ ((i, s) :: p.2) ++ r))
      have a := hF.swap_blocks (tagAt i s) (tagWord p.2) (tagWord l) (tagWord r) (by
        have := hnd
        rw [w1] at this
        simpa using this)
      have hev : signPow ((tagAt i s).length * (tagWord p.2).length) = 1 := by
        rw [tagAt_length]
        exact Even.neg_one_pow (even_iff_two_dvd.mpr (Dvd.dvd.mul_right (heven s hs) _))
      rw [hev, one_smul] at a
      rw [show tagWord l ++ tagWord p.2 ++ tagAt i s ++ tagWord r = tagWord (l ++ (p.2 ++ [(i, s)]) ++ r) by rw [w2]; simp,
        show tagWord l ++ tagAt i s ++ tagWord p.2 ++ tagWord r = tagWord (l ++ ((i, s) :: p.2) ++ r) by rw [w1]; simp] at a
      rw [if_pos hp'.symm, if_pos (List.Perm.refl _), relSign_self hnd] at a
      exact a
    rw [hone, one_smul] at hmove
    exact hmove

end

end Dsrg
