import Verif.Model.IntegerPartition
import Verif.Lemmas.MoSpace
import Mathlib.Combinatorics.Enumerative.Partition.Basic
import Mathlib.Data.Multiset.Sort

/-!
The ZS1 algorithm walks down the partitions in lexicographic order.
-/

namespace Dsrg

/-- Lexicographic order on lists of numbers. -/
abbrev lexNat (x y : List Nat) : Bool := pyListLt (fun a b => decide (a < b)) x y

/-- A partition of `n` as a non-increasing list of positive numbers. -/
def IsPart (n : Nat) (p : List Nat) : Prop := p.Pairwise (· ≥ ·) ∧ (∀ k ∈ p, 1 ≤ k) ∧ p.sum = n

/-- Greedy filling of `T` with parts `r`. -/
def zsFill (r T : Nat) : List Nat := List.replicate (T / r) r ++ (if T % r = 0 then [] else [T % r])

theorem sum_zsFill {r T : Nat} : (zsFill r T).sum = T := by
  unfold zsFill
  split
  · rename_i h; simp; have := Nat.div_add_mod' T r; omega
  · simp; have := Nat.div_add_mod' T r; omega

theorem mem_zsFill {r T k : Nat} (hr : 1 ≤ r) (hk : k ∈ zsFill r T) : 1 ≤ k ∧ k ≤ r := by
  unfold zsFill at hk
  have := Nat.mod_lt T hr
  split at hk
  · simp at hk; omega
  · simp at hk; rcases hk with h | h <;> omega

theorem sorted_zsFill {r T : Nat} (hr : 1 ≤ r) : (zsFill r T).Pairwise (· ≥ ·) := by
  unfold zsFill
  have := Nat.mod_lt T hr
  rw [List.pairwise_append]
  refine ⟨?_, ?_, ?_⟩
  · rw [List.pairwise_replicate]; right; exact le_refl _
  · split <;> simp
  · intro a ha b hb
    rw [List.mem_replicate] at ha
    split at hb
    · simp at hb
    · simp at hb; omega

theorem zsFill_ge {r T : Nat} (hr : 1 ≤ r) (h : r ≤ T) : zsFill r T = r :: zsFill r (T - r) := by
  unfold zsFill
  have e1 : T / r = (T - r) / r + 1 := by
    conv_lhs => rw [show T = (T - r) + r by omega]
    exact Nat.add_div_right _ hr
  have e2 : T % r = (T - r) % r := by
    conv_lhs => rw [show T = (T - r) + r by omega]
    exact Nat.add_mod_right _ _
  rw [e1, e2, List.replicate_succ]
  rfl

theorem zsFill_lt {r T : Nat} (h : T < r) (hT : 0 < T) : zsFill r T = [T] := by
  unfold zsFill
  rw [Nat.div_eq_of_lt h, Nat.mod_eq_of_lt h, if_neg (by omega)]
  rfl

theorem zsFill_zero {r : Nat} : zsFill r 0 = [] := by simp [zsFill]

/-- The greedy filling is the largest. -/
theorem le_zsFill {r : Nat} (hr : 1 ≤ r) (q : List Nat) (h1 : ∀ k ∈ q, 1 ≤ k ∧ k ≤ r) :
    q = zsFill r q.sum ∨ lexNat q (zsFill r q.sum) = true := by
  induction q with
  | nil => left; exact zsFill_zero.symm
  | cons b q ih =>
    have hb := h1 b (by simp)
    have ih := ih fun k hk => h1 k (by simp [hk])
    rw [List.sum_cons]
    by_cases h : r ≤ b + q.sum
    · rw [zsFill_ge hr h]
      by_cases hbr : b = r
      · subst hbr
        rw [Nat.add_sub_cancel_left]
        rcases ih with h' | h'
        · left; rw [← h']
        · right; simp [lexNat, pyListLt]; exact h'
      · right; simp only [lexNat, pyListLt, if_neg hbr, decide_eq_true_eq]; omega
    · rw [zsFill_lt (by omega) (by omega)]
      by_cases hq : q = []
      · subst hq; left; simp
      · have : 0 < q.sum := by
          obtain ⟨c, q', rfl⟩ := List.exists_cons_of_ne_nil hq
          have := h1 c (by simp)
          rw [List.sum_cons]; omega
        right
        simp only [lexNat, pyListLt]
        rw [if_neg (by omega)]
        simp; omega

/-- A list of positive numbers with sum `s` is not below the list of `s` ones. -/
theorem not_lt_ones (q : List Nat) (h1 : ∀ k ∈ q, 1 ≤ k) : lexNat q (List.replicate q.sum 1) = false := by
  suffices ∀ s, s ≤ q.sum → lexNat q (List.replicate s 1) = false from this _ le_rfl
  induction q with
  | nil => intro s hs; have : s = 0 := by simpa using hs
           subst this; rfl
  | cons b q ih =>
    intro s hs
    have hb := h1 b (by simp)
    cases s with
    | zero => rfl
    | succ s =>
      rw [List.replicate_succ]
      simp only [lexNat, pyListLt]
      by_cases hb1 : b = 1
      · rw [if_pos hb1]
        exact ih (fun k hk => h1 k (by simp [hk])) s (by rw [List.sum_cons] at hs; omega)
      · rw [if_neg hb1]; simp; omega

theorem lexNat_append (a x y : List Nat) : lexNat (a ++ x) (a ++ y) = lexNat x y := by
  induction a with
  | nil => rfl
  | cons b a ih => simpa [lexNat, pyListLt] using ih

/-- The next partition is the largest one below the current one. -/
theorem zs_next_maximal (a : List Nat) (k s : Nat) (hk : 2 ≤ k) (q : List Nat) (hq1 : q.Pairwise (· ≥ ·))
    (hq2 : ∀ i ∈ q, 1 ≤ i) (hsum : q.sum = (a ++ k :: List.replicate s 1).sum)
    (hlt : lexNat q (a ++ k :: List.replicate s 1) = true) :
    q = a ++ zsFill (k - 1) (k + s) ∨ lexNat q (a ++ zsFill (k - 1) (k + s)) = true := by
  induction a generalizing q with
  | nil =>
    simp only [List.nil_append] at hlt hsum ⊢
    have hsum' : q.sum = k + s := by simpa using hsum
    rw [← hsum']
    apply le_zsFill (by omega)
    cases q with
    | nil => simp
    | cons b q =>
      simp only [lexNat, pyListLt] at hlt
      have hb : b < k := by
        by_cases hbk : b = k
        · rw [if_pos hbk] at hlt
          exfalso
          have := not_lt_ones q fun i hi => hq2 i (by simp [hi])
          have hs : q.sum = s := by rw [List.sum_cons] at hsum'; omega
          rw [hs] at this
          simp only [lexNat] at this
          rw [this] at hlt; simp at hlt
        · rw [if_neg hbk] at hlt; simpa using hlt
      intro i hi
      refine ⟨hq2 i hi, ?_⟩
      rcases List.mem_cons.1 hi with rfl | hi
      · omega
      · have := (List.pairwise_cons.1 hq1).1 i hi
        omega
  | cons c a ih =>
    cases q with
    | nil => right; rfl
    | cons b q =>
      simp only [List.cons_append, lexNat, pyListLt] at hlt ⊢
      by_cases hbc : b = c
      · subst hbc
        simp only [if_true, List.cons.injEq, true_and] at hlt ⊢
        exact ih q (List.pairwise_cons.1 hq1).2 (fun i hi => hq2 i (by simp [hi]))
          (by simp only [List.cons_append, List.sum_cons] at hsum ⊢; omega) hlt
      · simp only [if_neg hbc] at hlt ⊢
        right; exact hlt

/-- The invariant of the loop: `x[:m]` is the partition `c ++ 1^s`. -/
structure ZsInv (n : Nat) (x : List Nat) (m h : Nat) (c : List Nat) (s : Nat) : Prop where
  hx : x = c ++ List.replicate (n - h) 1
  hlen : c.length = h
  hge : ∀ k ∈ c, 2 ≤ k
  hm : m = h + s
  hsum : c.sum + s = n
  hsort : c.Pairwise (· ≥ ·)

theorem two_mul_length_le {c : List Nat} (h : ∀ k ∈ c, 2 ≤ k) : 2 * c.length ≤ c.sum := by
  induction c with
  | nil => simp
  | cons a c ih =>
    have := h a (by simp)
    have := ih fun k hk => h k (by simp [hk])
    simp only [List.length_cons, List.sum_cons]; omega

theorem ZsInv.take {n : Nat} {x : List Nat} {m h : Nat} {c : List Nat} {s : Nat} (I : ZsInv n x m h c s) :
    x.take m = c ++ List.replicate s 1 := by
  have := two_mul_length_le I.hge
  have h1 := I.hlen; have h2 := I.hsum
  rw [I.hx, I.hm, ← I.hlen, List.take_length_add_append, List.take_replicate]
  congr 2
  omega

theorem ZsInv.isPart {n : Nat} {x : List Nat} {m h : Nat} {c : List Nat} {s : Nat} (I : ZsInv n x m h c s) :
    IsPart n (c ++ List.replicate s 1) := by
  refine ⟨?_, ?_, ?_⟩
  · rw [List.pairwise_append]
    refine ⟨I.hsort, by rw [List.pairwise_replicate]; right; exact le_refl _, ?_⟩
    intro a ha b hb
    have := I.hge a ha
    rw [List.mem_replicate] at hb
    omega
  · intro k hk
    rcases List.mem_append.1 hk with h | h
    · have := I.hge k h; omega
    · rw [List.mem_replicate] at h; omega
  · simpa using I.hsum

theorem zsInner_eq (r : Nat) (hr : 2 ≤ r) (t : Nat) : ∀ (c : List Nat) (w : Nat), t / r ≤ w →
    zsInner r (c ++ List.replicate w 1) c.length t =
      .ok (c ++ List.replicate (t / r) r ++ List.replicate (w - t / r) 1, c.length + t / r, t % r) := by
  induction t using Nat.strong_induction_on with
  | _ t ih =>
    intro c w hw
    rw [zsInner]
    by_cases h : r ≤ t
    · rw [dif_pos ⟨h, by omega⟩]
      have e1 : t / r = (t - r) / r + 1 := by
        conv_lhs => rw [show t = (t - r) + r by omega]
        exact Nat.add_div_right _ (by omega)
      have e2 : t % r = (t - r) % r := by
        conv_lhs => rw [show t = (t - r) + r by omega]
        exact Nat.add_mod_right _ _
      obtain ⟨w, rfl⟩ : ∃ w', w = w' + 1 := ⟨w - 1, by have := Nat.zero_le ((t - r) / r); rw [e1] at hw; generalize (t - r) / r = z at *; omega⟩
      rw [if_pos (by simp)]
      have hset : (c ++ List.replicate (w + 1) 1).set c.length r = (c ++ [r]) ++ List.replicate w 1 := by
        rw [List.set_append_right _ _ le_rfl, Nat.sub_self, List.replicate_succ, List.set_cons_zero]
        simp
      rw [hset]
      have := ih (t - r) (by omega) (c ++ [r]) w (by omega)
      rw [show (c ++ [r]).length = c.length + 1 by simp] at this
      rw [this, e2]
      congr 2
      · rw [e1, List.replicate_succ]; simp
      · congr 1; omega
    · rw [dif_neg (by omega)]
      rw [Nat.div_eq_of_lt (by omega), Nat.mod_eq_of_lt (by omega)]
      simp

theorem zsStep_spec {n : Nat} {x : List Nat} {m h : Nat} {a : List Nat} {k s : Nat} (I : ZsInv n x m h (a ++ [k]) s) :
    ∃ x' m' h' c' s', zsStep x m h = .ok (x', m', h') ∧ ZsInv n x' m' h' c' s' ∧
      c' ++ List.replicate s' 1 = a ++ zsFill (k - 1) (k + s) := by
  have hk : 2 ≤ k := I.hge k (by simp)
  have hh : h = a.length + 1 := by rw [← I.hlen]; simp
  have hsum : a.sum + k + s = n := by have := I.hsum; simpa using this
  have ha2 : ∀ i ∈ a, 2 ≤ i := fun i hi => I.hge i (by simp [hi])
  have hsa := List.pairwise_append.1 I.hsort
  have hlen2 := two_mul_length_le ha2
  have hget : (if h = 0 then x.getLast? else x[h - 1]?) = some k := by
    rw [if_neg (by omega), I.hx, hh]
    simp
  have hset : ∀ v, x.set (h - 1) v = a ++ v :: List.replicate (n - h) 1 := by
    intro v
    rw [I.hx, hh]
    simp
  unfold zsStep
  rw [hget]
  simp only
  by_cases hk2 : k = 2
  · subst hk2
    rw [if_pos rfl]
    refine ⟨_, _, _, a, s + 2, rfl, ⟨?_, ?_, ha2, ?_, by omega, hsa.1⟩, ?_⟩
    · rw [hset]
      congr 1
      rw [← List.replicate_succ]
      congr 1; omega
    · omega
    · have := I.hm; omega
    · congr 1
      unfold zsFill
      simp [Nat.mod_one, Nat.add_comm]
  · rw [if_neg hk2]
    obtain ⟨r, rfl⟩ : ∃ r, k = r + 1 := ⟨k - 1, by omega⟩
    have hr : 2 ≤ r := by omega
    rw [Nat.add_sub_cancel]
    have hms : m - h + 1 = s + 1 := by have := I.hm; omega
    have hdm := Nat.div_add_mod' (s + 1) r
    have hml := Nat.mod_lt (s + 1) (show 0 < r by omega)
    generalize hqd : (s + 1) / r = q at *
    generalize htd : (s + 1) % r = t at *
    have hqr : 2 * q ≤ q * r := by rw [Nat.mul_comm]; exact Nat.mul_le_mul_left q hr
    have hinner := zsInner_eq r hr (s + 1) (a ++ [r]) (n - h) (by rw [hqd]; omega)
    rw [show (a ++ [r]).length = h by simp [hh], hqd, htd] at hinner
    have hx1 : x.set (h - 1) r = (a ++ [r]) ++ List.replicate (n - h) 1 := by rw [hset]; simp
    rw [hx1, hms, hinner]
    simp only
    have hfill : zsFill r (r + 1 + s) = r :: List.replicate q r ++ (if t = 0 then [] else [t]) := by
      unfold zsFill
      have e1 : (r + 1 + s) / r = q + 1 := by
        rw [show r + 1 + s = (s + 1) + r by omega, Nat.add_div_right _ (by omega), hqd]
      have e2 : (r + 1 + s) % r = t := by
        rw [show r + 1 + s = (s + 1) + r by omega, Nat.add_mod_right, htd]
      rw [e1, e2, List.replicate_succ]
    have hge' : ∀ i ∈ a ++ [r] ++ List.replicate q r, 2 ≤ i := by
      intro i hi
      rw [List.mem_append, List.mem_append, List.mem_singleton, List.mem_replicate] at hi
      rcases hi with (h | h) | h
      · exact ha2 i h
      · omega
      · omega
    have hsort' : (a ++ [r] ++ List.replicate q r).Pairwise (· ≥ ·) := by
      rw [List.pairwise_append, List.pairwise_append]
      refine ⟨⟨hsa.1, by simp, ?_⟩, by rw [List.pairwise_replicate]; right; exact le_refl _, ?_⟩
      · intro i hi j hj
        have := hsa.2.2 i hi (r + 1) (by simp)
        rw [List.mem_singleton] at hj
        omega
      · intro i hi j hj
        rw [List.mem_replicate] at hj
        rw [List.mem_append, List.mem_singleton] at hi
        rcases hi with hi | hi
        · have := hsa.2.2 i hi (r + 1) (by simp)
          omega
        · omega
    have hsum' : (a ++ [r] ++ List.replicate q r).sum = a.sum + r + q * r := by simp [Nat.add_assoc]
    have hlen' : (a ++ [r] ++ List.replicate q r).length = h + q := by simp [hh]; omega
    by_cases ht0 : t = 0
    · rw [if_pos ht0]
      refine ⟨_, _, _, a ++ [r] ++ List.replicate q r, 0, rfl, ⟨?_, hlen', hge', rfl, ?_, hsort'⟩, ?_⟩
      · rw [Nat.sub_sub]
      · rw [hsum']; omega
      · rw [hfill, if_pos ht0]; simp
    · rw [if_neg ht0]
      by_cases ht1 : t > 1
      · rw [if_pos ht1, if_pos (by simp; omega)]
        refine ⟨_, _, _, a ++ [r] ++ List.replicate q r ++ [t], 0, rfl, ⟨?_, ?_, ?_, rfl, ?_, ?_⟩, ?_⟩
        · obtain ⟨w, hw⟩ : ∃ w, n - h - q = w + 1 := ⟨n - h - q - 1, by omega⟩
          rw [hw, List.replicate_succ, ← hlen', List.set_append_right _ _ le_rfl, Nat.sub_self, List.set_cons_zero,
            List.append_assoc _ [t]]
          rw [hlen', show n - (h + q + 1) = w by omega]
          rfl
        · rw [List.length_append, hlen']; rfl
        · intro i hi
          rcases List.mem_append.1 hi with h' | h'
          · exact hge' i h'
          · simp at h'; omega
        · rw [List.sum_append, hsum']; simp; omega
        · rw [List.pairwise_append]
          refine ⟨hsort', by simp, ?_⟩
          intro i hi j hj
          rw [List.mem_singleton] at hj
          rw [List.mem_append, List.mem_append, List.mem_singleton, List.mem_replicate] at hi
          rcases hi with (hi | hi) | hi
          · have := hsa.2.2 i hi (r + 1) (by simp)
            omega
          · omega
          · omega
        · rw [hfill, if_neg ht0]; simp
      · rw [if_neg ht1]
        have ht : t = 1 := by omega
        refine ⟨_, _, _, a ++ [r] ++ List.replicate q r, 1, rfl, ⟨?_, hlen', hge', by omega, ?_, hsort'⟩, ?_⟩
        · rw [Nat.sub_sub]
        · rw [hsum']; omega
        · rw [hfill, if_neg ht0, ht]; simp

/-- The finite set of partitions of `n`. -/
noncomputable def partSet (n : Nat) : Finset (List Nat) :=
  (Finset.univ : Finset (Nat.Partition n)).image fun p => p.parts.sort (· ≥ ·)

theorem mem_partSet {n : Nat} {p : List Nat} : p ∈ partSet n ↔ IsPart n p := by
  unfold partSet IsPart
  rw [Finset.mem_image]
  constructor
  · rintro ⟨P, -, rfl⟩
    refine ⟨Multiset.pairwise_sort _ _, ?_, ?_⟩
    · intro k hk
      exact P.parts_pos ((Multiset.mem_sort _).1 hk)
    · rw [← Multiset.sum_coe, Multiset.sort_eq]; exact P.parts_sum
  · rintro ⟨h1, h2, h3⟩
    refine ⟨⟨(p : Multiset Nat), ?_, ?_⟩, Finset.mem_univ _, ?_⟩
    · intro i hi; exact h2 i (by simpa using hi)
    · simpa using h3
    · exact (Multiset.coe_sort _ _).trans (List.mergeSort_eq_self _ (by simpa using h1))

end Dsrg
