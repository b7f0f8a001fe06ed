import Verif.Lemmas.Orientation
import Verif.Lemmas.SympyTidy

/-!
The symmetries used by SymPy keep the sign of a product with two sides, so that such a product is never its own negative.
-/

namespace Dsrg

/-- The blocks have two matched sides, with the given sign. -/
def SignedAs (bs : List (List Nat × List Nat)) (tail : List Nat) (κ : Int) : Prop :=
  ∃ obs : List (OBlock Nat), obs.map Prod.snd = bs ∧ Matched obs ∧ orientedSign obs tail = κ

theorem Matched.of_perm {bs cs : List (OBlock Nat)} (h : Matched bs) (h1 : (sideA bs).Perm (sideA cs)) (h2 : (sideB bs).Perm (sideB cs)) : Matched cs :=
  ((h1.map _).symm.trans h).trans (h2.map _)

/-- Rearranging the names within the halves. -/
theorem sides_halves (B A : List (OBlock Nat)) (w : Bool) {lo lo' up up' : List Nat} (h1 : lo.Perm lo') (h2 : up.Perm up') :
    (sideA (B ++ (w, lo, up) :: A)).Perm (sideA (B ++ (w, lo', up') :: A)) ∧ (sideB (B ++ (w, lo, up) :: A)).Perm (sideB (B ++ (w, lo', up') :: A)) ∧
      blockWeight (B ++ (w, lo, up) :: A) = blockWeight (B ++ (w, lo', up') :: A) := by
  simp only [sideA_append, sideA_cons, sideB_append, sideB_cons, blockWeight_append, blockWeight_cons, h1.length_eq]
  refine ⟨List.Perm.append_left _ (List.Perm.append_right _ ?_), List.Perm.append_left _ (List.Perm.append_right _ ?_), trivial⟩ <;>
  · split_ifs <;> assumption

theorem sign_two_swaps {L R : List Nat} {a c s s' : Nat} (hn : (L ++ a :: c :: R ++ [s, s']).Nodup) :
    signPow (invCount (L ++ c :: a :: R ++ [s', s])) = signPow (invCount (L ++ a :: c :: R ++ [s, s'])) := by
  have hA := antisymmFn_sign (α := Nat)
  have h1 := hA L (R ++ [s, s']) a c (by simpa using hn)
  have hn2 : (L ++ c :: a :: R ++ [s, s']).Nodup := by
    refine (List.Perm.nodup_iff ?_).1 hn
    exact List.Perm.append_right _ (List.Perm.append_left _ (List.Perm.swap _ _ _))
  have h2 := hA (L ++ c :: a :: R) [] s s' hn2
  beta_reduce at h1 h2
  rw [h2]
  simp only [List.append_assoc, List.cons_append] at h1 ⊢
  rw [h1, neg_neg]

theorem SignedAs.lower {B A : List (List Nat × List Nat)} {pre post up : List Nat} {a c s s' : Nat} {κ : Int}
    (hn : (flatBlocks (B ++ (pre ++ a :: c :: post, up) :: A) ++ [s, s']).Nodup)
    (h : SignedAs (B ++ (pre ++ a :: c :: post, up) :: A) [s, s'] κ) : SignedAs (B ++ (pre ++ c :: a :: post, up) :: A) [s', s] κ := by
  obtain ⟨obs, h1, h2, h3⟩ := h
  obtain ⟨B', X, rfl, rfl, hX⟩ := split_blocks h1
  obtain ⟨w, A', rfl, rfl⟩ := split_block hX
  obtain ⟨p1, p2, p3⟩ := sides_halves B' A' w (lo := pre ++ a :: c :: post) (lo' := pre ++ c :: a :: post) (up := up)
    (List.Perm.append_left _ (List.Perm.swap _ _ _)) (.refl _)
  refine ⟨B' ++ (w, pre ++ c :: a :: post, up) :: A', by simp, h2.of_perm p1 p2, ?_⟩
  rw [← h3]
  unfold orientedSign
  rw [← p1.countP_eq, ← p3]
  congr 1
  rw [flatBlocks_append, flatBlocks_cons] at hn
  have := sign_two_swaps (L := flatBlocks (B'.map Prod.snd) ++ pre) (R := post ++ up ++ flatBlocks (A'.map Prod.snd)) (a := a) (c := c) (s := s) (s' := s')
    (by simpa using hn)
  rw [List.map_append, List.map_cons, List.map_append, List.map_cons, flatBlocks_append, flatBlocks_cons, flatBlocks_append, flatBlocks_cons]
  simpa using this

theorem SignedAs.upper {B A : List (List Nat × List Nat)} {pre post lo : List Nat} {a c s s' : Nat} {κ : Int}
    (hn : (flatBlocks (B ++ (lo, pre ++ a :: c :: post) :: A) ++ [s, s']).Nodup)
    (h : SignedAs (B ++ (lo, pre ++ a :: c :: post) :: A) [s, s'] κ) : SignedAs (B ++ (lo, pre ++ c :: a :: post) :: A) [s', s] κ := by
  obtain ⟨obs, h1, h2, h3⟩ := h
  obtain ⟨B', X, rfl, rfl, hX⟩ := split_blocks h1
  obtain ⟨w, A', rfl, rfl⟩ := split_block hX
  obtain ⟨p1, p2, p3⟩ := sides_halves B' A' w (up := pre ++ a :: c :: post) (up' := pre ++ c :: a :: post) (lo := lo)
    (.refl _) (List.Perm.append_left _ (List.Perm.swap _ _ _))
  refine ⟨B' ++ (w, lo, pre ++ c :: a :: post) :: A', by simp, h2.of_perm p1 p2, ?_⟩
  rw [← h3]
  unfold orientedSign
  rw [← p1.countP_eq, ← p3]
  congr 1
  rw [flatBlocks_append, flatBlocks_cons] at hn
  have := sign_two_swaps (L := flatBlocks (B'.map Prod.snd) ++ lo ++ pre) (R := post ++ flatBlocks (A'.map Prod.snd)) (a := a) (c := c) (s := s) (s' := s')
    (by simpa using hn)
  rw [List.map_append, List.map_cons, List.map_append, List.map_cons, flatBlocks_append, flatBlocks_cons, flatBlocks_append, flatBlocks_cons]
  simpa using this

theorem SignedAs.halves {B A : List (List Nat × List Nat)} {lo up tail : List Nat} {κ : Int} (hlen : lo.length = up.length)
    (hn : (flatBlocks (B ++ (lo, up) :: A) ++ tail).Nodup)
    (h : SignedAs (B ++ (lo, up) :: A) tail κ) : SignedAs (B ++ (up, lo) :: A) tail κ := by
  obtain ⟨obs, h1, h2, h3⟩ := h
  obtain ⟨B', X, rfl, rfl, hX⟩ := split_blocks h1
  obtain ⟨w, A', rfl, rfl⟩ := split_block hX
  have e1 : sideA (B' ++ (!w, up, lo) :: A') = sideA (B' ++ (w, lo, up) :: A') := by
    rw [sideA_append, sideA_append, sideA_cons, sideA_cons]; cases w <;> rfl
  have e2 : sideB (B' ++ (!w, up, lo) :: A') = sideB (B' ++ (w, lo, up) :: A') := by
    rw [sideB_append, sideB_append, sideB_cons, sideB_cons]; cases w <;> rfl
  refine ⟨B' ++ (!w, up, lo) :: A', by simp, by unfold Matched; rw [e1, e2]; exact h2, ?_⟩
  rw [← h3]
  unfold orientedSign
  rw [e1]
  rw [flatBlocks_append, flatBlocks_cons] at hn
  have := (antisymmFn_sign (α := Nat)).swap_blocks lo up (flatBlocks (B'.map Prod.snd)) (flatBlocks (A'.map Prod.snd) ++ tail) (by simpa using hn)
  rw [List.map_append, List.map_cons, List.map_append, List.map_cons, flatBlocks_append, flatBlocks_cons, flatBlocks_append, flatBlocks_cons]
  simp only [List.append_assoc, smul_eq_mul] at this ⊢
  rw [this, mul_comm (signPow _) (signPow (invCount _)), mul_assoc, ← signPow_add]
  congr 1
  apply signPow_congr
  rw [blockWeight_append, blockWeight_append, blockWeight_cons, blockWeight_cons, hlen]
  have : (up.length * up.length) % 2 = up.length % 2 := by
    rcases Nat.mod_two_eq_zero_or_one up.length with h | h <;> simp [Nat.mul_mod, h]
  cases w
  · simp only [Bool.not_false, if_true, Bool.false_eq_true, if_false]; omega
  · simp only [Bool.not_true, if_true, Bool.false_eq_true, if_false]; omega

theorem SignedAs.exchange {B A : List (List Nat × List Nat)} {b b' : List Nat × List Nat} {tail : List Nat} {κ : Int}
    (hb : b.1.length = b.2.length)
    (hn : (flatBlocks (B ++ b :: b' :: A) ++ tail).Nodup)
    (h : SignedAs (B ++ b :: b' :: A) tail κ) : SignedAs (B ++ b' :: b :: A) tail κ := by
  obtain ⟨obs, h1, h2, h3⟩ := h
  obtain ⟨B', X, rfl, rfl, hX⟩ := split_blocks h1
  obtain ⟨w, X', rfl, hX'⟩ := split_block hX
  obtain ⟨w', A', rfl, rfl⟩ := split_block hX'
  have comm : ∀ x y R : List Nat, (x ++ (y ++ R)).Perm (y ++ (x ++ R)) := by
    intro x y R; rw [← List.append_assoc, ← List.append_assoc]; exact List.Perm.append_right _ List.perm_append_comm
  have p1 : (sideA (B' ++ (w, b) :: (w', b') :: A')).Perm (sideA (B' ++ (w', b') :: (w, b) :: A')) := by
    simp only [sideA_append, sideA_cons]; exact List.Perm.append_left _ (comm _ _ _)
  have p2 : (sideB (B' ++ (w, b) :: (w', b') :: A')).Perm (sideB (B' ++ (w', b') :: (w, b) :: A')) := by
    simp only [sideB_append, sideB_cons]; exact List.Perm.append_left _ (comm _ _ _)
  have p3 : blockWeight (B' ++ (w, b) :: (w', b') :: A') = blockWeight (B' ++ (w', b') :: (w, b) :: A') := by
    simp only [blockWeight_append, blockWeight_cons]; omega
  refine ⟨B' ++ (w', b') :: (w, b) :: A', by simp, h2.of_perm p1 p2, ?_⟩
  rw [← h3]
  unfold orientedSign
  rw [← p1.countP_eq, ← p3]
  congr 1
  rw [flatBlocks_append, flatBlocks_cons, flatBlocks_cons] at hn
  have := (antisymmFn_sign (α := Nat)).swap_blocks (b.1 ++ b.2) (b'.1 ++ b'.2) (flatBlocks (B'.map Prod.snd)) (flatBlocks (A'.map Prod.snd) ++ tail)
    (by simpa using hn)
  have hev : signPow ((b.1 ++ b.2).length * (b'.1 ++ b'.2).length) = 1 := by
    rw [← signPow_zero]
    apply signPow_congr
    rw [List.length_append, hb, ← two_mul, mul_assoc, Nat.mul_mod_right]
  rw [hev, one_smul] at this
  simp only [List.map_append, List.map_cons, flatBlocks_append, flatBlocks_cons]
  simpa using this

theorem flat_range {bs : List (List Nat × List Nat)} {N s s' : Nat} (hr : (flatBlocks bs).Perm (List.range N)) (hs : N ≤ s) (hs' : N ≤ s') (hne : s ≠ s') :
    (flatBlocks bs ++ [s, s']).Nodup := by
  rw [List.nodup_append]
  refine ⟨hr.nodup_iff.2 List.nodup_range, by simp [hne], ?_⟩
  intro a ha b hb e
  have := List.mem_range.1 (hr.mem_iff.1 ha)
  simp at hb
  omega

theorem map_tail {f : Nat → Nat} {l tail : List Nat} (h : ∀ n ∈ tail, f n = n) : (l ++ tail).map f = l.map f ++ tail := by
  rw [List.map_append]
  congr 1
  conv_rhs => rw [← List.map_id tail]
  exact List.map_congr_left h

theorem swap_half (i n : Nat) : Equiv.swap (2 * i) (2 * i + 1) n / 2 = n / 2 := by
  rw [Equiv.swap_apply_def]
  split_ifs <;> omega

/-- One end of a summation on each side. -/
theorem Matched.one_each {bs : List (OBlock Nat)} (h : Matched bs) (hn : (flatBlocks (bs.map Prod.snd)).Nodup) {i : Nat}
    (h1 : 2 * i ∈ flatBlocks (bs.map Prod.snd)) (h2 : 2 * i + 1 ∈ flatBlocks (bs.map Prod.snd)) :
    (2 * i ∈ sideA bs ∧ 2 * i + 1 ∉ sideA bs) ∨ (2 * i ∉ sideA bs ∧ 2 * i + 1 ∈ sideA bs) := by
  have hp := sides_perm bs
  have hnd := List.nodup_append.1 (hp.nodup_iff.2 hn)
  rw [← hp.mem_iff, List.mem_append] at h1 h2
  have hA : 2 * i ∈ sideA bs ∨ 2 * i + 1 ∈ sideA bs := by
    by_contra hno
    push Not at hno
    have hB := h1.resolve_left hno.1
    have : i ∈ (sideB bs).map (· / 2) := List.mem_map.2 ⟨2 * i, hB, by omega⟩
    rw [← h.mem_iff] at this
    obtain ⟨n, hn, e⟩ := List.mem_map.1 this
    have : n = 2 * i ∨ n = 2 * i + 1 := by omega
    rcases this with rfl | rfl
    · exact hno.1 hn
    · exact hno.2 hn
  have hB : ¬ (2 * i ∈ sideA bs ∧ 2 * i + 1 ∈ sideA bs) := by
    rintro ⟨k1, k2⟩
    have : i ∈ (sideA bs).map (· / 2) := List.mem_map.2 ⟨2 * i, k1, by omega⟩
    rw [h.mem_iff] at this
    obtain ⟨n, hn, e⟩ := List.mem_map.1 this
    have : n = 2 * i ∨ n = 2 * i + 1 := by omega
    rcases this with rfl | rfl
    · exact hnd.2.2 _ k1 _ hn rfl
    · exact hnd.2.2 _ k2 _ hn rfl
  tauto

theorem map_swap_one {x y : Nat} {l : List Nat} (hn : l.Nodup) (hx : x ∈ l) (hy : y ∉ l) :
    ∃ p q, l = p ++ x :: q ∧ l.map (Equiv.swap x y) = p ++ y :: q := by
  obtain ⟨p, q, rfl⟩ := List.append_of_mem hx
  have hx' : x ∉ p ++ q := by
    have := (List.perm_middle (a := x) (l₁ := p) (l₂ := q)).nodup_iff.1 hn
    exact (List.nodup_cons.1 this).1
  have hf : ∀ s : List Nat, (∀ z ∈ s, z ∈ p ++ q) → s.map (Equiv.swap x y) = s := by
    intro s hs
    conv_rhs => rw [← List.map_id s]
    refine List.map_congr_left fun z hz => Equiv.swap_apply_of_ne_of_ne ?_ ?_
    · rintro rfl; exact hx' (hs z hz)
    · rintro rfl
      apply hy
      have := hs z hz
      simp only [List.mem_append, List.mem_cons] at this ⊢
      tauto
  refine ⟨p, q, rfl, ?_⟩
  rw [List.map_append, List.map_cons, Equiv.swap_apply_left, hf p (by simp; tauto), hf q (by simp; tauto)]

theorem SignedAs.ends {bs : List (List Nat × List Nat)} {N i s s' : Nat} {κ : Int}
    (hr : (flatBlocks bs).Perm (List.range N)) (hs : N ≤ s) (hs' : N ≤ s') (hne : s ≠ s') (hi : 2 * i + 1 < N)
    (h : SignedAs bs [s, s'] κ) : SignedAs (bs.map (mapBlock (Equiv.swap (2 * i) (2 * i + 1)))) [s, s'] κ := by
  obtain ⟨obs, rfl, h2, h3⟩ := h
  have hn := flat_range hr hs hs' hne
  have m1 : 2 * i ∈ flatBlocks (obs.map Prod.snd) := hr.mem_iff.2 (List.mem_range.2 (by omega))
  have m2 : 2 * i + 1 ∈ flatBlocks (obs.map Prod.snd) := hr.mem_iff.2 (List.mem_range.2 (by omega))
  have hnd := (List.nodup_append.1 hn).1
  have hAnd := (List.nodup_append.1 ((sides_perm obs).nodup_iff.2 hnd)).1
  refine ⟨obs.map (mapOBlock (Equiv.swap (2 * i) (2 * i + 1))), map_snd_map _ _, ?_, ?_⟩
  · unfold Matched
    rw [sideA_map, sideB_map, List.map_map, List.map_map]
    have : ((· / 2) ∘ ⇑(Equiv.swap (2 * i) (2 * i + 1))) = fun n => n / 2 := by funext n; exact swap_half i n
    rw [this]; exact h2
  · rw [← h3]
    unfold orientedSign
    rw [map_snd_map, flatBlocks_map, sideA_map, blockWeight_map]
    rw [← map_tail (tail := [s, s']) (f := Equiv.swap (2 * i) (2 * i + 1)) (by
      intro n hn
      apply Equiv.swap_apply_of_ne_of_ne
      · rintro rfl; simp at hn; omega
      · rintro rfl; simp at hn; omega)]
    rw [swap_values (by omega) hn (List.mem_append_left _ m1) (List.mem_append_left _ m2)]
    have hflip : signPow (((sideA obs).map (Equiv.swap (2 * i) (2 * i + 1))).countP (fun n => decide (n % 2 = 0)) + blockWeight obs) =
        - signPow ((sideA obs).countP (fun n => decide (n % 2 = 0)) + blockWeight obs) := by
      rw [← signPow_succ]
      apply signPow_congr
      rcases h2.one_each hnd m1 m2 with ⟨k1, k2⟩ | ⟨k1, k2⟩
      · obtain ⟨p, q, e1, e2⟩ := map_swap_one hAnd k1 k2
        rw [e2, e1]
        simp only [List.countP_append, List.countP_cons]
        have a1 : decide ((2 * i + 1) % 2 = 0) = false := by simp
        have a2 : decide ((2 * i) % 2 = 0) = true := by simp
        rw [a1, a2]; simp; omega
      · rw [Equiv.swap_comm]
        obtain ⟨p, q, e1, e2⟩ := map_swap_one hAnd k2 k1
        rw [e2, e1]
        simp only [List.countP_append, List.countP_cons]
        have a1 : decide ((2 * i + 1) % 2 = 0) = false := by simp
        have a2 : decide ((2 * i) % 2 = 0) = true := by simp
        rw [a1, a2]; simp; omega
    rw [hflip, neg_mul_neg]

theorem renamePair_half (i j n : Nat) : renamePair i j n / 2 = Equiv.swap i j (n / 2) := by
  rcases renamePair_cases i j n with ⟨h1, h2⟩ | ⟨h1, h2⟩ | ⟨h1, h2, h3⟩
  · rw [h1, h2, Equiv.swap_apply_left]
  · rw [h1, h2, Equiv.swap_apply_right]
  · rw [h3, Equiv.swap_apply_of_ne_of_ne h1 h2]

theorem renamePair_mod (i j n : Nat) : renamePair i j n % 2 = n % 2 := by
  unfold renamePair
  rw [Equiv.swap_apply_def (2 * i + 1)]
  split_ifs with h1 h2
  · rw [Equiv.swap_apply_of_ne_of_ne (by omega) (by omega)]; omega
  · rw [Equiv.swap_apply_of_ne_of_ne (by omega) (by omega)]; omega
  · rw [Equiv.swap_apply_def]
    split_ifs <;> omega

theorem SignedAs.rename {bs : List (List Nat × List Nat)} {N i j s s' : Nat} {κ : Int}
    (hr : (flatBlocks bs).Perm (List.range N)) (hs : N ≤ s) (hs' : N ≤ s') (hne : s ≠ s') (hi : 2 * i + 1 < N) (hj : 2 * j + 1 < N)
    (h : SignedAs bs [s, s'] κ) : SignedAs (bs.map (mapBlock (renamePair i j))) [s, s'] κ := by
  obtain ⟨obs, rfl, h2, h3⟩ := h
  have hn := flat_range hr hs hs' hne
  have mem : ∀ n, n < N → n ∈ flatBlocks (obs.map Prod.snd) ++ [s, s'] := fun n hn => List.mem_append_left _ (hr.mem_iff.2 (List.mem_range.2 hn))
  refine ⟨obs.map (mapOBlock (renamePair i j)), map_snd_map _ _, ?_, ?_⟩
  · unfold Matched
    rw [sideA_map, sideB_map, List.map_map, List.map_map]
    have : ((· / 2) ∘ renamePair i j) = (Equiv.swap i j) ∘ (· / 2) := by funext n; exact renamePair_half i j n
    rw [this, ← List.map_map, ← List.map_map]
    exact h2.map _
  · rw [← h3]
    unfold orientedSign
    rw [map_snd_map, flatBlocks_map, sideA_map, blockWeight_map]
    have hout : ∀ n ∈ [s, s'], renamePair i j n = n := by
      intro n hn
      rcases renamePair_cases i j n with ⟨h1, -⟩ | ⟨h1, -⟩ | ⟨-, -, h3⟩
      · simp at hn; omega
      · simp at hn; omega
      · exact h3
    rw [← map_tail hout]
    have e1 : ((sideA obs).map (renamePair i j)).countP (fun n => decide (n % 2 = 0)) = (sideA obs).countP fun n => decide (n % 2 = 0) := by
      rw [List.countP_map]
      apply List.countP_congr
      intro n _
      simp [renamePair_mod]
    rw [e1]
    congr 1
    by_cases hij : i = j
    · subst hij
      have : renamePair i i = id := by funext n; simp [renamePair]
      rw [this, List.map_id]
    · have e2 : (flatBlocks (obs.map Prod.snd) ++ [s, s']).map (renamePair i j) =
          ((flatBlocks (obs.map Prod.snd) ++ [s, s']).map (Equiv.swap (2 * i + 1) (2 * j + 1))).map (Equiv.swap (2 * i) (2 * j)) := by
        rw [List.map_map]; rfl
      rw [e2, swap_values (by omega) (hn.map (Equiv.injective _)), swap_values (by omega) hn (mem _ (by omega)) (mem _ (by omega)), neg_neg]
      · exact List.mem_map.2 ⟨2 * i, mem _ (by omega), Equiv.swap_apply_of_ne_of_ne (by omega) (by omega)⟩
      · exact List.mem_map.2 ⟨2 * j, mem _ (by omega), Equiv.swap_apply_of_ne_of_ne (by omega) (by omega)⟩

/-! ### Cutting a list into blocks -/

section
variable {α β : Type}

/-- The halves of tensors whose slots are filled one after the other. -/
def cutTensors : List Tensor → List α → List (List α × List α)
  | [], _ => []
  | t :: ts, L => (L.take t.pair.nLower, (L.drop t.pair.nLower).take t.pair.nUpper) :: cutTensors ts (L.drop t.pair.size)

/-- The halves of the operator and of the tensors. -/
def cutBlocks (ts : List Tensor) (op : SqOp) (L : List α) : List (List α × List α) :=
  (L.take op.nLower, (L.drop op.nLower).take op.nUpper) :: cutTensors ts (L.drop op.size)

theorem cut_one (n m : Nat) (b A : List α) (h : b.length = m + n) :
    ((b ++ A).take n, ((b ++ A).drop n).take m) = (b.take n, (b.drop n).take m) := by
  rw [List.take_append_of_le_length (by omega), List.drop_append_of_le_length (by omega), List.take_append_of_le_length (by simp; omega)]

theorem cutTensors_cons (t : Tensor) (ts : List Tensor) (b A : List α) (h : b.length = t.pair.size) :
    cutTensors (t :: ts) (b ++ A) = (b.take t.pair.nLower, (b.drop t.pair.nLower).take t.pair.nUpper) :: cutTensors ts A := by
  rw [cutTensors, cut_one _ _ _ _ h, List.drop_append_of_le_length h.ge, ← h, List.drop_length, List.nil_append]

theorem cutTensors_append : ∀ (ts₁ ts₂ : List Tensor) (B A : List α), B.length = slotCount ts₁ →
    cutTensors (ts₁ ++ ts₂) (B ++ A) = cutTensors ts₁ B ++ cutTensors ts₂ A := by
  intro ts₁
  induction ts₁ with
  | nil =>
    intro ts₂ B A h
    obtain rfl : B = [] := List.eq_nil_of_length_eq_zero h
    rfl
  | cons t ts₁ ih =>
    intro ts₂ B A h
    rw [slotCount_cons] at h
    obtain ⟨b, B', rfl, hb⟩ : ∃ b B', B = b ++ B' ∧ b.length = t.pair.size :=
      ⟨B.take t.pair.size, B.drop t.pair.size, (List.take_append_drop _ _).symm, by simp; omega⟩
    rw [List.cons_append, List.append_assoc, cutTensors_cons _ _ _ _ hb, cutTensors_cons _ _ _ _ hb, ih ts₂ B' A (by rw [List.length_append] at h; omega)]
    rfl

theorem cutTensors_map (f : α → β) : ∀ (ts : List Tensor) (L : List α), cutTensors ts (L.map f) = (cutTensors ts L).map (mapBlock f) := by
  intro ts
  induction ts with
  | nil => intro L; rfl
  | cons t ts ih =>
    intro L
    rw [cutTensors, cutTensors, List.map_cons, ← ih]
    simp [mapBlock, List.map_take, List.map_drop]

theorem cutBlocks_map (f : α → β) (ts : List Tensor) (op : SqOp) (L : List α) : cutBlocks ts op (L.map f) = (cutBlocks ts op L).map (mapBlock f) := by
  unfold cutBlocks
  rw [List.map_cons, ← cutTensors_map]
  simp [mapBlock, List.map_take, List.map_drop]

theorem flat_cutTensors : ∀ (ts : List Tensor) (L : List α), L.length = slotCount ts → flatBlocks (cutTensors ts L) = L := by
  intro ts
  induction ts with
  | nil =>
    intro L h
    obtain rfl : L = [] := List.eq_nil_of_length_eq_zero h
    rfl
  | cons t ts ih =>
    intro L h
    rw [slotCount_cons] at h
    rw [cutTensors, flatBlocks_cons, ih _ (by rw [List.length_drop]; omega), ← List.take_add, Nat.add_comm]
    exact List.take_append_drop _ _

theorem flat_cutBlocks (ts : List Tensor) (op : SqOp) (L : List α) (h : L.length = op.size + slotCount ts) : flatBlocks (cutBlocks ts op L) = L := by
  unfold cutBlocks
  rw [flatBlocks_cons, flat_cutTensors _ _ (by rw [List.length_drop]; omega), ← List.take_add, Nat.add_comm]
  exact List.take_append_drop _ _

theorem cutBlocks_op (ts : List Tensor) (op : SqOp) (b A : List α) (h : b.length = op.size) :
    cutBlocks ts op (b ++ A) = (b.take op.nLower, (b.drop op.nLower).take op.nUpper) :: cutTensors ts A := by
  unfold cutBlocks
  rw [cut_one _ _ _ _ h, List.drop_append_of_le_length h.ge, ← h, List.drop_length, List.nil_append]

theorem cutBlocks_tensor (ts₁ ts₂ : List Tensor) (t : Tensor) (op : SqOp) (B₀ B₁ b A : List α) (h0 : B₀.length = op.size)
    (h1 : B₁.length = slotCount ts₁) (h2 : b.length = t.pair.size) :
    cutBlocks (ts₁ ++ t :: ts₂) op (B₀ ++ (B₁ ++ (b ++ A))) = ((B₀.take op.nLower, (B₀.drop op.nLower).take op.nUpper) :: cutTensors ts₁ B₁) ++
      (b.take t.pair.nLower, (b.drop t.pair.nLower).take t.pair.nUpper) :: cutTensors ts₂ A := by
  rw [cutBlocks_op _ _ _ _ h0, cutTensors_append _ _ _ _ h1, cutTensors_cons _ _ _ _ h2]
  rfl

end

/-- The halves of one tensor or of the operator. -/
def pairBlock (x : IndicesPair) : List Index × List Index := (x.lower.list, x.upper.list)

/-- The halves of the operator and of the tensors of a term. -/
def termBlocks (ts : List Tensor) (op : SqOp) : List (List Index × List Index) := pairBlock op :: ts.map fun t => pairBlock t.pair

theorem termBlocks_refill (ts : List Tensor) (op : SqOp) (L : List Index) :
    termBlocks (refillAll ts (L.drop op.size)) (op.refill L) = cutBlocks ts op L := by
  have key : ∀ (ts : List Tensor) (L : List Index), ((refillAll ts L).map fun t => pairBlock t.pair) = cutTensors ts L := by
    intro ts
    induction ts with
    | nil => intro L; rfl
    | cons t ts ih => intro L; rw [refillAll, List.map_cons, ih]; rfl
  unfold termBlocks
  rw [key]
  rfl

theorem flat_termBlocks (ts : List Tensor) (op : SqOp) : flatBlocks (termBlocks ts op) = slotLabels ts op := by
  unfold termBlocks slotLabels flatBlocks
  rw [List.flatMap_cons, List.flatMap_map]
  rfl

/-- A move of one block with a sign. -/
theorem SignedAs.block {hermitian : Bool} {n : Nat} {b b' : List Nat} {flip : Bool} (hm : BlockMove true hermitian n b b' flip) (hb : b.length = n + n)
    {B A : List (List Nat × List Nat)} {s s' : Nat} {κ : Int}
    (hn : (flatBlocks (B ++ (b.take n, (b.drop n).take n) :: A) ++ [s, s']).Nodup)
    (h : SignedAs (B ++ (b.take n, (b.drop n).take n) :: A) [s, s'] κ) :
    SignedAs (B ++ (b'.take n, (b'.drop n).take n) :: A) (if flip then [s', s] else [s, s']) κ := by
  have two : ∀ lo up : List Nat, lo.length = n → up.length = n → (((lo ++ up).take n, ((lo ++ up).drop n).take n) : List Nat × List Nat) = (lo, up) := by
    intro lo up h1 h2
    rw [List.take_left' h1, List.drop_left' h1, List.take_of_length_le h2.le]
  cases hm with
  | stay => exact h
  | lower pre post up a c _ h1 h2 =>
    rw [two _ _ h1 h2] at h hn
    rw [two _ _ (by simpa using h1) h2]
    exact SignedAs.lower hn h
  | upper lo pre post a c _ h1 h2 =>
    rw [two _ _ h1 h2] at h hn
    rw [two _ _ h1 (by simpa using h2)]
    exact SignedAs.upper hn h
  | pairs _ _ _ _ _ _ _ _ hf => exact absurd hf (by decide)
  | halves lo up _ h1 h2 =>
    rw [two _ _ h1 h2] at h hn
    rw [two _ _ h2 h1]
    exact SignedAs.halves (h1.trans h2.symm) hn h

theorem map_range_perm {N : Nat} {l : List Nat} (h : l.Perm (List.range N)) (e : Equiv.Perm Nat) (he : ∀ n < N, e n < N) :
    (l.map e).Perm (List.range N) := by
  have hl : l.length = N := by rw [h.length_eq, List.length_range]
  have hnd : (l.map e).Nodup := (h.nodup_iff.2 List.nodup_range).map (Equiv.injective e)
  refine List.Subperm.perm_of_length_le (hnd.subperm ?_) (by simp [hl])
  intro n hn
  obtain ⟨k, hk, rfl⟩ := List.mem_map.1 hn
  exact List.mem_range.2 (he k (List.mem_range.1 (h.mem_iff.1 hk)))

/-- One symmetry keeps the sign. -/
theorem symStep_signed {ts : List Tensor} {op : SqOp} {hermitian : Bool} {v : List SlotGroup} {D : List Index}
    (hv : bsgsList ts op hermitian = .ok v) (hty : ∀ t ∈ ts, t.upper.ty.isAntisym = true) (hop : op.upper.ty.isAntisym = true)
    (hbal : op.nUpper = op.nLower)
    {names : List Nat} {s s' : Nat} (hlen : names.length = op.size + slotCount ts) (hr : names.Perm (List.range (2 * D.length)))
    (hs : 2 * D.length ≤ s) (hs' : 2 * D.length ≤ s') (hne : s ≠ s') {y : List Nat}
    (hstep : SymStep (dummyRanges 0 (spaceGroups D)) v (names ++ [s, s']) y) :
    ∃ (names' : List Nat) (flip : Bool), y = names' ++ (if flip then [s', s] else [s, s']) ∧ names'.length = op.size + slotCount ts ∧
      names'.Perm (List.range (2 * D.length)) ∧
      ∀ κ, SignedAs (cutBlocks ts op names) [s, s'] κ → SignedAs (cutBlocks ts op names') (if flip then [s', s] else [s, s']) κ := by
  have hbalT := (bsgsList_ok hv).1
  have hnd : (names ++ [s, s']).Nodup := by
    have := flat_range (bs := cutBlocks ts op names) (by rw [flat_cutBlocks _ _ _ hlen]; exact hr) hs hs' hne
    rwa [flat_cutBlocks _ _ _ hlen] at this
  generalize hx : names ++ [s, s'] = x at hstep
  cases hstep with
  | slots e k p before b b' after s₀ s₀' r r' hat hp hb hperm =>
    obtain ⟨rfl, rfl, rfl⟩ := append_two_inj hx
    rcases entry_cases hv hat with ⟨-, hoff, -, -, hsz, hg⟩ | ⟨ts₁, t, ts₂, t₀, hts, hoff, hsz, ht₀, hg, hn₀, -⟩
    · have hb0 : before = [] := List.eq_nil_of_length_eq_zero hoff
      subst hb0
      rw [hsz] at hb
      unfold IndicesPair.opBsgs at hg
      rw [if_pos hop] at hg
      have hb2 : b.length = op.nLower + op.nLower := by rw [hb]; unfold IndicesPair.size; omega
      have hall : ∃ flip, [r, r'] = (if flip then [s', s] else [s, s']) ∧ BlockMove true false op.nLower b b' flip := by
        rcases bsgs_move hg hbal rfl hp hb2 hperm with h | ⟨-, h⟩
        · exact absurd h.1 (by decide)
        · rw [hop] at h
          rcases h with ⟨rfl, rfl, h⟩ | ⟨rfl, rfl, h⟩
          · exact ⟨false, rfl, h⟩
          · exact ⟨true, rfl, h⟩
      obtain ⟨flip, hrr, hm⟩ := hall
      have hpm : ([] ++ b' ++ after).Perm ([] ++ b ++ after) := List.Perm.append_right _ (List.Perm.append_left _ hm.perm)
      refine ⟨[] ++ b' ++ after, flip, by rw [hrr], hpm.length_eq.trans hlen, hpm.trans hr, fun κ hκ => ?_⟩
      rw [List.nil_append, cutBlocks_op _ _ _ _ hb, hbal] at hκ
      rw [List.nil_append, cutBlocks_op _ _ _ _ (hm.perm.length_eq.trans hb), hbal]
      refine SignedAs.block (B := []) hm hb2 ?_ hκ
      have := flat_cutBlocks ts op (b ++ after) (by simpa using hlen)
      rw [cutBlocks_op _ _ _ _ hb, hbal] at this
      rw [List.nil_append, this]; simpa using hnd
    · have ht : t ∈ ts := by rw [hts]; simp
      have hn := hbalT t ht
      rw [hsz] at hb
      have hb2 : b.length = t.pair.nLower + t.pair.nLower := by rw [hb]; unfold IndicesPair.size; omega
      have hall : ∃ flip, [r, r'] = (if flip then [s', s] else [s, s']) ∧ BlockMove true hermitian t.pair.nLower b b' flip := by
        rcases bsgs_move hg ((hbalT t₀ ht₀).trans hn₀) hn₀ hp hb2 hperm with h | ⟨-, h⟩
        · exact absurd h.1 (by decide)
        · have : t₀.pair.upper.ty.isAntisym = true := hty t₀ ht₀
          rw [this] at h
          rcases h with ⟨rfl, rfl, h⟩ | ⟨rfl, rfl, h⟩
          · exact ⟨false, rfl, h⟩
          · exact ⟨true, rfl, h⟩
      obtain ⟨flip, hrr, hm⟩ := hall
      obtain ⟨B₀, B₁, rfl, hB₀⟩ : ∃ B₀ B₁, before = B₀ ++ B₁ ∧ B₀.length = op.size :=
        ⟨before.take op.size, before.drop op.size, (List.take_append_drop _ _).symm, by simp; omega⟩
      have hB₁ : B₁.length = slotCount ts₁ := by rw [List.length_append] at hoff; omega
      have hpm : (B₀ ++ B₁ ++ b' ++ after).Perm (B₀ ++ B₁ ++ b ++ after) := List.Perm.append_right _ (List.Perm.append_left _ hm.perm)
      refine ⟨B₀ ++ B₁ ++ b' ++ after, flip, by rw [hrr], hpm.length_eq.trans hlen, hpm.trans hr, fun κ hκ => ?_⟩
      have e : ∀ c : List Nat, B₀ ++ B₁ ++ c ++ after = B₀ ++ (B₁ ++ (c ++ after)) := by intro c; simp
      have hcut : ∀ c : List Nat, c.length = t.pair.size → cutBlocks ts op (B₀ ++ B₁ ++ c ++ after) =
          ((B₀.take op.nLower, (B₀.drop op.nLower).take op.nUpper) :: cutTensors ts₁ B₁) ++
            (c.take t.pair.nLower, (c.drop t.pair.nLower).take t.pair.nLower) :: cutTensors ts₂ after := by
        intro c hc
        rw [e, hts, cutBlocks_tensor ts₁ ts₂ t op B₀ B₁ c after hB₀ hB₁ hc, hn]
      have hfl := flat_cutBlocks ts op (B₀ ++ B₁ ++ b ++ after) hlen
      rw [hcut b hb] at hκ hfl
      rw [hcut b' (hm.perm.length_eq.trans hb)]
      refine SignedAs.block hm hb2 ?_ hκ
      rw [hfl]; exact hnd
  | exchange e k before b b' after s₀ s₀' hat hk hb hb' =>
    obtain ⟨rfl, rfl, rfl⟩ := append_two_inj hx
    have hpm : (before ++ b' ++ b ++ after).Perm (before ++ b ++ b' ++ after) := by
      apply List.Perm.append_right
      rw [List.append_assoc, List.append_assoc]
      exact List.Perm.append_left _ List.perm_append_comm
    refine ⟨before ++ b' ++ b ++ after, false, rfl, hpm.length_eq.trans hlen, hpm.trans hr, fun κ hκ => ?_⟩
    rcases entry_cases hv hat with ⟨-, -, -, hc, -⟩ | ⟨ts₁, t, ts₂, t₀, hts, hoff, hsz, ht₀, hg, hn₀, hnext⟩
    · omega
    · obtain ⟨t', ts₃, rfl, hname, hnl⟩ := hnext hk
      have ht : t ∈ ts := by rw [hts]; simp
      have ht' : t' ∈ ts := by rw [hts]; simp
      have hn := hbalT t ht
      have hn' := hbalT t' ht'
      rw [hsz] at hb hb'
      have hsz' : t'.pair.size = t.pair.size := by unfold IndicesPair.size; omega
      obtain ⟨B₀, B₁, rfl, hB₀⟩ : ∃ B₀ B₁, before = B₀ ++ B₁ ∧ B₀.length = op.size :=
        ⟨before.take op.size, before.drop op.size, (List.take_append_drop _ _).symm, by simp; omega⟩
      have hB₁ : B₁.length = slotCount ts₁ := by rw [List.length_append] at hoff; omega
      have hcut : ∀ c c' : List Nat, c.length = t.pair.size → c'.length = t.pair.size → cutBlocks ts op (B₀ ++ B₁ ++ c ++ c' ++ after) =
          ((B₀.take op.nLower, (B₀.drop op.nLower).take op.nUpper) :: cutTensors ts₁ B₁) ++
            (c.take t.pair.nLower, (c.drop t.pair.nLower).take t.pair.nLower) ::
            (c'.take t.pair.nLower, (c'.drop t.pair.nLower).take t.pair.nLower) :: cutTensors ts₃ after := by
        intro c c' hc hc'
        have e : B₀ ++ B₁ ++ c ++ c' ++ after = B₀ ++ (B₁ ++ (c ++ (c' ++ after))) := by simp
        rw [e, hts, cutBlocks_tensor ts₁ (t' :: ts₃) t op B₀ B₁ c _ hB₀ hB₁ hc, cutTensors_cons _ _ _ _ (by rw [hsz']; exact hc'), hn, hn', hnl]
      have hfl := flat_cutBlocks ts op (B₀ ++ B₁ ++ b ++ b' ++ after) hlen
      rw [hcut b b' hb hb'] at hκ hfl
      rw [hcut b' b hb' hb]
      refine SignedAs.exchange ?_ ?_ hκ
      · have : t.pair.size = t.pair.nUpper + t.pair.nLower := rfl
        simp only [List.length_take, List.length_drop]; omega
      · rw [hfl]; exact hnd
  | ends d i g s₀ s₀' hd h1 h2 =>
    obtain ⟨rfl, rfl, rfl⟩ := append_two_inj hx
    obtain ⟨hi, -, -⟩ := dummy_space hd h1 h2 h1 h2
    refine ⟨names.map (Equiv.swap (2 * i) (2 * i + 1)), false, rfl, by simpa using hlen, map_range_perm hr _ (swap_lt (by omega) (by omega)), fun κ hκ => ?_⟩
    rw [cutBlocks_map]
    exact SignedAs.ends (N := 2 * D.length) (by rw [flat_cutBlocks _ _ _ hlen]; exact hr) hs hs' hne (by omega) hκ
  | rename d i j g s₀ s₀' hd h1 h2 h3 h4 =>
    obtain ⟨rfl, rfl, rfl⟩ := append_two_inj hx
    obtain ⟨hi, hj, hsp⟩ := dummy_space hd h1 h2 h3 h4
    refine ⟨names.map (renamePair i j), false, rfl, by simpa using hlen, ?_, fun κ hκ => ?_⟩
    · refine map_range_perm hr ((Equiv.swap (2 * i + 1) (2 * j + 1)).trans (Equiv.swap (2 * i) (2 * j))) fun n hn => ?_
      exact swap_lt (by omega) (by omega) _ (swap_lt (by omega) (by omega) _ hn)
    · rw [cutBlocks_map]
      exact SignedAs.rename (N := 2 * D.length) (by rw [flat_cutBlocks _ _ _ hlen]; exact hr) hs hs' hne (by omega) (by omega) hκ

/-- Any number of symmetries. -/
theorem symSteps_signed {ts : List Tensor} {op : SqOp} {hermitian : Bool} {v : List SlotGroup} {D : List Index}
    (hv : bsgsList ts op hermitian = .ok v) (hty : ∀ t ∈ ts, t.upper.ty.isAntisym = true) (hop : op.upper.ty.isAntisym = true)
    (hbal : op.nUpper = op.nLower)
    {names : List Nat} {s s' : Nat} (hlen : names.length = op.size + slotCount ts) (hr : names.Perm (List.range (2 * D.length)))
    (hs : 2 * D.length ≤ s) (hs' : 2 * D.length ≤ s') (hne : s ≠ s') {y : List Nat}
    (hsteps : Relation.ReflTransGen (SymStep (dummyRanges 0 (spaceGroups D)) v) (names ++ [s, s']) y) :
    ∃ (names' : List Nat) (flip : Bool), y = names' ++ (if flip then [s', s] else [s, s']) ∧ names'.length = op.size + slotCount ts ∧
      names'.Perm (List.range (2 * D.length)) ∧
      ∀ κ, SignedAs (cutBlocks ts op names) [s, s'] κ → SignedAs (cutBlocks ts op names') (if flip then [s', s] else [s, s']) κ := by
  induction hsteps with
  | refl => exact ⟨names, false, rfl, hlen, hr, fun _ h => h⟩
  | @tail _ z _ hstep ih =>
    obtain ⟨names₁, f₁, rfl, hl₁, hr₁, hκ₁⟩ := ih
    cases f₁
    · obtain ⟨names₂, f₂, rfl, hl₂, hr₂, hκ₂⟩ := symStep_signed hv hty hop hbal hl₁ hr₁ hs hs' hne hstep
      exact ⟨names₂, f₂, rfl, hl₂, hr₂, fun κ h => hκ₂ κ (hκ₁ κ h)⟩
    · obtain ⟨names₂, f₂, rfl, hl₂, hr₂, hκ₂⟩ := symStep_signed hv hty hop hbal hl₁ hr₁ hs' hs hne.symm hstep
      refine ⟨names₂, !f₂, by cases f₂ <;> rfl, hl₂, hr₂, fun κ h => ?_⟩
      have := hκ₂ κ (hκ₁ κ h)
      cases f₂ <;> exact this

/-- A product with two matched sides is not its own negative. -/
theorem not_own_negative {ts : List Tensor} {op : SqOp} {hermitian : Bool} {v : List SlotGroup} {D : List Index}
    (hv : bsgsList ts op hermitian = .ok v) (hty : ∀ t ∈ ts, t.upper.ty.isAntisym = true) (hop : op.upper.ty.isAntisym = true)
    (hbal : op.nUpper = op.nLower)
    {names : List Nat} (hlen : names.length = op.size + slotCount ts) (hr : names.Perm (List.range (2 * D.length)))
    {obs : List (OBlock Nat)} (hobs : obs.map Prod.snd = cutBlocks ts op names) (hm : Matched obs) :
    ¬ Relation.ReflTransGen (SymStep (dummyRanges 0 (spaceGroups D)) v) (names ++ [names.length, names.length + 1])
      (flipSign (names ++ [names.length, names.length + 1])) := by
  intro h
  have hN : names.length = 2 * D.length := by rw [hr.length_eq, List.length_range]
  have hflip : flipSign (names ++ [names.length, names.length + 1]) = names ++ [names.length + 1, names.length] := by
    unfold flipSign
    rw [List.length_append, show names.length + [names.length, names.length + 1].length - 2 = names.length from rfl, List.take_left, List.drop_left]
    rfl
  rw [hflip] at h
  obtain ⟨names', f, e, hl', hr', hκ⟩ := symSteps_signed hv hty hop hbal hlen hr hN.ge (by omega) (by omega) h
  obtain ⟨obs', h1, h2, h3⟩ := hκ _ ⟨obs, hobs, hm, rfl⟩
  have hlt : (if f then [names.length + 1, names.length] else [names.length, names.length + 1]).length = 2 := by cases f <;> rfl
  obtain ⟨e1, e2⟩ := List.append_inj' e (by rw [hlt]; rfl)
  subst e1
  have hb : BalancedBlocks (obs.map Prod.snd) := by
    have hbalT := (bsgsList_ok hv).1
    have key : ∀ (ts : List Tensor) (L : List Nat), (∀ t ∈ ts, t.pair.nUpper = t.pair.nLower) → L.length = slotCount ts → BalancedBlocks (cutTensors ts L) := by
      intro ts
      induction ts with
      | nil => intro L _ _ b hb; simp [cutTensors] at hb
      | cons t ts ih =>
        intro L ht hL b hb
        have hsz : t.pair.size = t.pair.nUpper + t.pair.nLower := rfl
        have := ht t (by simp)
        rw [slotCount_cons] at hL
        rw [cutTensors, List.mem_cons] at hb
        rcases hb with rfl | hb
        · simp only [List.length_take, List.length_drop]; omega
        · exact ih _ (fun t ht' => ht t (List.mem_cons_of_mem _ ht')) (by rw [List.length_drop]; omega) b hb
    rw [hobs]
    intro b hb
    unfold cutBlocks at hb
    rw [List.mem_cons] at hb
    rcases hb with rfl | hb
    · have hsz : op.size = op.nUpper + op.nLower := rfl
      simp only [List.length_take, List.length_drop]; omega
    · exact key ts _ hbalT (by rw [List.length_drop]; omega) b hb
  have hnd : (names ++ [names.length, names.length + 1]).Nodup := by
    have := flat_range (bs := cutBlocks ts op names) (by rw [flat_cutBlocks _ _ _ hlen]; exact hr) hN.ge (s' := names.length + 1) (by omega) (by omega)
    rwa [flat_cutBlocks _ _ _ hlen] at this
  have hu := orientedSign_unique (hobs.trans h1.symm) hb (by rw [hobs, flat_cutBlocks _ _ _ hlen]; exact (List.nodup_append.1 hnd).1) hm h2
    [names.length, names.length + 1]
  rw [← h3, ← e2] at hu
  have hsgn : orientedSign obs' [names.length + 1, names.length] = - orientedSign obs' [names.length, names.length + 1] := by
    unfold orientedSign
    rw [h1, flat_cutBlocks _ _ _ hlen]
    have := antisymmFn_sign names [] names.length (names.length + 1) hnd
    beta_reduce at this
    rw [this, neg_mul]
  have hne : orientedSign obs' [names.length + 1, names.length] ≠ 0 := by
    unfold orientedSign
    rw [← signPow_add]
    rcases signPow_eq (invCount (flatBlocks (List.map Prod.snd obs') ++ [names.length + 1, names.length]) + (List.countP (fun n => decide (n % 2 = 0)) (sideA obs') + blockWeight obs')) with h | h <;> rw [h] <;> decide
  omega

end Dsrg
