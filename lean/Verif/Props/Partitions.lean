import Verif.Lemmas.IntegerPartition

/-!
Properties C20 and C21: the integer helpers.
-/

namespace Dsrg

/-! ### C20 integer_partition lists every partition exactly once -/

theorem lexNat_irrefl' (p : List Nat) : ¬ lexNat p p = true := by
  rw [show lexNat p p = false from pyListLt_irrefl p]; simp

/-- From a state holding the partition `p` the loop terminates and yields every partition below `p`. -/
theorem zsLoop_spec (n : Nat) (hn : 1 ≤ n) (w : Nat) : ∀ (x : List Nat) (m h : Nat) (c : List Nat) (s : Nat),
    ZsInv n x m h c s → ((partSet n).filter fun q => lexNat q (c ++ List.replicate s 1) = true).card = w →
    ∃ out, (∀ fuel ≥ w + 1, zsLoop n fuel x m h = some (.ok ((if x[0]? = some n ∧ 1 < n then [x.take 1] else []) ++ out))) ∧
      out.Nodup ∧ ∀ q, q ∈ out ↔ IsPart n q ∧ lexNat q (c ++ List.replicate s 1) = true := by
  induction w using Nat.strong_induction_on with
  | _ w ih =>
    intro x m h c s I hw
    rcases List.eq_nil_or_concat c with rfl | ⟨a, k, rfl⟩
    · -- all ones
      have hh : h = 0 := I.hlen.symm
      have hs : s = n := by simpa using I.hsum
      subst hs; subst hh
      have hx : x = List.replicate s 1 := by simpa using I.hx
      have hx0 : x[0]? = some 1 := by
        rw [hx]; obtain ⟨s, rfl⟩ : ∃ s', s = s' + 1 := ⟨s - 1, by omega⟩
        simp
      refine ⟨[], ?_, List.nodup_nil, ?_⟩
      · intro fuel hf
        obtain ⟨f, rfl⟩ : ∃ f, fuel = f + 1 := ⟨fuel - 1, by omega⟩
        rw [zsLoop, hx0]
        simp only [if_true, Option.some.injEq]
        rw [if_neg (by omega)]
        rfl
      · intro q
        simp only [List.not_mem_nil, false_iff, not_and, List.nil_append]
        intro hq
        have := not_lt_ones q hq.2.1
        rw [hq.2.2] at this
        rw [this]; simp
    · rw [List.concat_eq_append] at I ⊢
      simp only [List.concat_eq_append] at hw
      obtain ⟨x', m', h', c', s', hstep, I', hnext⟩ := zsStep_spec I
      have hk : 2 ≤ k := I.hge k (by simp)
      have hp : (a ++ [k]) ++ List.replicate s 1 = a ++ k :: List.replicate s 1 := by simp
      have hlt : lexNat (c' ++ List.replicate s' 1) ((a ++ [k]) ++ List.replicate s 1) = true := by
        rw [hnext, hp, lexNat_append]
        have hf : zsFill (k - 1) (k + s) = (k - 1) :: zsFill (k - 1) (k + s - (k - 1)) := zsFill_ge (by omega) (by omega)
        rw [hf]
        simp only [lexNat, pyListLt]
        rw [if_neg (by omega)]
        simp; omega
      have hcard : ((partSet n).filter fun q => lexNat q (c' ++ List.replicate s' 1) = true).card < w := by
        rw [← hw]
        apply Finset.card_lt_card
        rw [Finset.ssubset_iff_of_subset]
        · refine ⟨c' ++ List.replicate s' 1, ?_, ?_⟩
          · rw [Finset.mem_filter, mem_partSet]
            exact ⟨I'.isPart, hlt⟩
          · rw [Finset.mem_filter]
            exact fun hh => lexNat_irrefl' _ hh.2
        · intro q hq
          rw [Finset.mem_filter] at hq ⊢
          exact ⟨hq.1, pyListLt_trans hq.2 hlt⟩
      obtain ⟨out, hrun, hnd, hmem⟩ := ih _ hcard x' m' h' c' s' I' rfl
      obtain ⟨b, hb, hb2⟩ : ∃ b, x[0]? = some b ∧ 2 ≤ b := by
        cases a with
        | nil => exact ⟨k, by rw [I.hx]; simp, hk⟩
        | cons b a => exact ⟨b, by rw [I.hx]; simp, I.hge b (by simp)⟩
      have hx'0 : x'[0]? ≠ some n ∨ ¬ 1 < n := by
        by_contra hcon
        rw [not_or, not_not, not_not] at hcon
        have hx' := I'.hx
        cases hc' : c' with
        | nil =>
          rw [hc', List.nil_append] at hx'
          have hh : h' = 0 := by rw [← I'.hlen, hc']; rfl
          rw [hx', hh] at hcon
          obtain ⟨n', rfl⟩ : ∃ n', n = n' + 1 := ⟨n - 1, by omega⟩
          simp at hcon
          omega
        | cons d c'' =>
          have h1 : x'[0]? = some d := by rw [hx', hc']; simp
          rw [h1] at hcon
          have hd : d = n := by simpa using hcon.1
          have hs' := I'.hsum
          rw [hc', List.sum_cons] at hs'
          -- then the partition is [n], the largest one
          have hc''s : c''.sum = 0 := by omega
          have hc''n : c'' = [] := by
            cases c'' with
            | nil => rfl
            | cons e c3 =>
              have := I'.hge e (by rw [hc']; simp)
              rw [List.sum_cons] at hc''s; omega
          have hs0 : s' = 0 := by omega
          rw [hc', hc''n, hs0] at hlt
          have hpart := I.isPart
          simp only [List.replicate_zero, List.append_nil] at hlt
          generalize hP : (a ++ [k]) ++ List.replicate s 1 = P at hlt hpart
          cases P with
          | nil => simp [pyListLt] at hlt
          | cons e P =>
            simp only [lexNat, pyListLt] at hlt
            have hsumP := hpart.2.2
            rw [List.sum_cons] at hsumP
            by_cases hde : d = e
            · rw [if_pos hde] at hlt
              cases P with
              | nil => simp [pyListLt] at hlt
              | cons f P =>
                have := hpart.2.1 f (by simp)
                rw [List.sum_cons] at hsumP
                omega
            · rw [if_neg hde] at hlt
              simp at hlt; omega
      refine ⟨(c' ++ List.replicate s' 1) :: out, ?_, ?_, ?_⟩
      · intro fuel hf
        obtain ⟨f, rfl⟩ : ∃ f, fuel = f + 1 := ⟨fuel - 1, by omega⟩
        rw [zsLoop, hb]
        simp only
        rw [if_neg (by omega), hstep]
        simp only
        have hno : ¬ (x'[0]? = some n ∧ 1 < n) := by
          rintro ⟨e1, e2⟩
          rcases hx'0 with h | h
          · exact h e1
          · exact h e2
        rw [hrun f (by omega), I'.take, if_neg hno]
        simp only [Option.map_some, Except.map, List.nil_append, Option.some.injEq]
        have : (b = n) ↔ (b = n ∧ 1 < n) := by constructor
                                               · intro h; exact ⟨h, by omega⟩
                                               · exact fun h => h.1
        by_cases hbn : b = n
        · rw [if_pos hbn, if_pos (this.1 hbn)]
        · rw [if_neg hbn, if_neg (fun h => hbn h.1)]
      · rw [List.nodup_cons]
        refine ⟨?_, hnd⟩
        rw [hmem]
        exact fun hh => lexNat_irrefl' _ hh.2
      · intro q
        rw [List.mem_cons, hmem]
        constructor
        · rintro (rfl | ⟨h1, h2⟩)
          · exact ⟨I'.isPart, hlt⟩
          · exact ⟨h1, pyListLt_trans h2 hlt⟩
        · rintro ⟨h1, h2⟩
          have hs : q.sum = (a ++ k :: List.replicate s 1).sum := by
            rw [h1.2.2, ← hp, I.isPart.2.2]
          rcases zs_next_maximal a k s hk q h1.1 h1.2.1 hs (by rw [← hp]; exact h2) with h | h
          · left; rw [h, hnext]
          · right; rw [hnext]; exact ⟨h1, h⟩

/-- There are fewer than `2 ^ n` partitions of `n ≥ 1`. -/
theorem card_partSet_le (n : Nat) : (partSet n).card ≤ 2 ^ n := by
  unfold partSet
  calc _ ≤ Fintype.card (Nat.Partition n) := Finset.card_image_le
    _ ≤ Fintype.card (Composition n) := Fintype.card_le_of_surjective _ Nat.Partition.ofComposition_surj
    _ = 2 ^ (n - 1) := composition_card n
    _ ≤ 2 ^ n := Nat.pow_le_pow_right (by decide) (by omega)

/-- For every `n ≥ 2` the generator terminates (after at most `2 ^ n` rounds) and yields every non-increasing list of
positive integers with sum `n` exactly once and nothing else. -/
theorem C20_integer_partition (n : Nat) (hn : 2 ≤ n) :
    ∃ out, (∀ fuel ≥ 2 ^ n, integerPartition n fuel = some (.ok out)) ∧ out.Nodup ∧
      ∀ p, p ∈ out ↔ p.Pairwise (· ≥ ·) ∧ (∀ k ∈ p, 1 ≤ k) ∧ p.sum = n := by
  have hx : (List.replicate n 1).set 0 n = [n] ++ List.replicate (n - 1) 1 := by
    obtain ⟨k, rfl⟩ : ∃ k, n = k + 1 := ⟨n - 1, by omega⟩
    rw [List.replicate_succ]; rfl
  have I : ZsInv n ((List.replicate n 1).set 0 n) 1 1 [n] 0 :=
    ⟨hx, rfl, by simpa using hn, rfl, by simp, by simp⟩
  have hcard : ((partSet n).filter fun q => lexNat q ([n] ++ List.replicate 0 1) = true).card + 1 ≤ 2 ^ n := by
    refine le_trans ?_ (card_partSet_le n)
    rw [Nat.succ_le_iff]
    apply Finset.card_lt_card
    rw [Finset.filter_ssubset]
    exact ⟨[n], mem_partSet.2 ⟨by simp, by simp; omega, by simp⟩, lexNat_irrefl' _⟩
  obtain ⟨out, hrun, hnd, hmem⟩ := zsLoop_spec n (by omega) _ _ _ _ _ _ I rfl
  have h0 : ((List.replicate n 1).set 0 n)[0]? = some n := by rw [hx]; rfl
  refine ⟨[n] :: out, ?_, ?_, ?_⟩
  · intro fuel hf
    unfold integerPartition
    rw [if_neg (by omega), hrun fuel (by omega), if_pos ⟨h0, by omega⟩, hx]
    rfl
  · rw [List.nodup_cons]
    refine ⟨?_, hnd⟩
    rw [hmem]
    exact fun hh => lexNat_irrefl' _ hh.2
  · intro p
    rw [List.mem_cons, hmem]
    simp only [List.replicate_zero, List.append_nil]
    constructor
    · rintro (rfl | ⟨h1, -⟩)
      · exact ⟨by simp, by simp; omega, by simp⟩
      · exact h1
    · intro hp
      rcases pyListLt_trichotomy p [n] with h | h | h
      · right; exact ⟨hp, h⟩
      · left; exact h
      · exfalso
        obtain ⟨h1, h2, h3⟩ := hp
        cases p with
        | nil => simp [pyListLt] at h
        | cons b p =>
          simp only [pyListLt] at h
          rw [List.sum_cons] at h3
          by_cases hb : n = b
          · rw [if_pos hb] at h
            cases p with
            | nil => simp [pyListLt] at h
            | cons c p =>
              have := h2 c (by simp)
              rw [List.sum_cons] at h3; omega
          · rw [if_neg hb] at h; simp at h; omega

/-- The two small cases: nothing for 1 (although `[1]` is a partition) and `IndexError` for 0. -/
theorem C20_small_cases (fuel : Nat) :
    integerPartition 1 (fuel + 1) = some (.ok []) ∧ integerPartition 0 fuel = some (.error .indexError) :=
  ⟨rfl, rfl⟩

example : integerPartition 5 7 = some (.ok [[5], [4, 1], [3, 2], [3, 1, 1], [2, 2, 1], [2, 1, 1, 1], [1, 1, 1, 1, 1]]) := by
  decide +kernel

/-! ### C21 integer_separation lists all two-part splittings -/

/-- Exactly the splittings with both parts at least 1 (at least 0 with `include_zero`), in increasing order of the first
part. -/
theorem C21_integer_separation (n : Int) (includeZero : Bool) :
    (∀ i j, (i, j) ∈ integerSeparation n includeZero ↔
      i + j = n ∧ (if includeZero then 0 else 1) ≤ i ∧ (if includeZero then 0 else 1) ≤ j) ∧
    (integerSeparation n includeZero).Pairwise (fun a b => a.1 < b.1) := by
  have key : ∀ (s e : Int) (l1 l2 : Int) , (l2 = l1) → (List.zip ((List.range l1.toNat).map fun (k : Nat) => s + k)
      ((List.range l2.toNat).map fun (k : Nat) => e - k)) = (List.range l1.toNat).map fun (k : Nat) => (s + k, e - k) := by
    intro s e l1 l2 h
    subst h
    rw [List.zip_map']
  have hform : integerSeparation n includeZero = (List.range (n + 1 - 2 * (if includeZero then 0 else 1)).toNat).map
      fun (k : Nat) => (((if includeZero then 0 else 1 : Int)) + k, n - (if includeZero then 0 else 1) - k) := by
    cases includeZero
    · simp only [integerSeparation, pyRangeUp, pyRangeDown, Bool.false_eq_true, if_false]
      rw [key _ _ _ _ (by omega)]
      congr 3; omega
    · simp only [integerSeparation, pyRangeUp, pyRangeDown, if_true]
      rw [key _ _ _ _ (by omega)]
      congr 3
  rw [hform]
  constructor
  · intro i j
    rw [List.mem_map]
    constructor
    · rintro ⟨k, hk, h⟩
      rw [List.mem_range] at hk
      simp only [Prod.mk.injEq] at h
      cases includeZero <;> simp at hk h ⊢ <;> omega
    · rintro ⟨h1, h2, h3⟩
      refine ⟨(i - (if includeZero then 0 else 1)).toNat, ?_, ?_⟩
      · rw [List.mem_range]
        cases includeZero <;> simp at h2 h3 ⊢ <;> omega
      · simp only [Prod.mk.injEq]
        cases includeZero <;> simp at h2 h3 ⊢ <;> omega
  · rw [List.pairwise_map]
    refine List.pairwise_lt_range.imp ?_
    intro a b h
    simpa using h

example : integerSeparation 4 false = [(1, 3), (2, 2), (3, 1)] := by decide +kernel

end Dsrg
