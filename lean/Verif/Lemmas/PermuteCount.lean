import Verif.Props.IndexLists
import Verif.Spec.AmbitCode

/-!
The number of arrangements written by `ambit_permute_format`.
-/

namespace Dsrg

/-- Interleave alpha and beta labels according to a spin pattern. -/
def mergeSpins : List Bool → List Index → List Index → List Index
  | true :: p, a, b :: bs => b :: mergeSpins p a bs
  | false :: p, a :: as, b => a :: mergeSpins p as b
  | _, _, _ => []

theorem mergeSpins_self (l : List Index) :
    mergeSpins (l.map Index.isBeta) (l.filter fun i => !i.isBeta) (l.filter Index.isBeta) = l := by
  induction l with
  | nil => rfl
  | cons i l ih =>
    cases h : i.isBeta
    · simp [h, mergeSpins, ih]
    · simp [h, mergeSpins, ih]

theorem mergeSpins_spec (pat : List Bool) : ∀ (a b : List Index), (∀ i ∈ a, i.isBeta = false) → (∀ i ∈ b, i.isBeta = true) →
    a.length = pat.count false → b.length = pat.count true →
    (mergeSpins pat a b).map Index.isBeta = pat ∧ (mergeSpins pat a b).filter (fun i => !i.isBeta) = a ∧
      (mergeSpins pat a b).filter Index.isBeta = b := by
  induction pat with
  | nil =>
    intro a b _ _ h1 h2
    have h1 : a = [] := by simpa using h1
    have h2 : b = [] := by simpa using h2
    subst h1; subst h2
    exact ⟨rfl, rfl, rfl⟩
  | cons x pat ih =>
    intro a b ha hb h1 h2
    cases x with
    | false =>
      cases a with
      | nil => simp at h1
      | cons i a =>
        obtain ⟨i1, i2, i3⟩ := ih a b (fun j hj => ha j (List.mem_cons_of_mem _ hj)) hb (by simpa using h1) (by simpa using h2)
        have hi := ha i (by simp)
        simp [mergeSpins, i1, i2, i3, hi]
    | true =>
      cases b with
      | nil => simp at h2
      | cons i b =>
        obtain ⟨i1, i2, i3⟩ := ih a b ha (fun j hj => hb j (List.mem_cons_of_mem _ hj)) (by simpa using h1) (by simpa using h2)
        have hi := hb i (by simp)
        cases a with
        | nil => simp [mergeSpins, i1, i2, i3, hi]
        | cons j a => simp [mergeSpins, i1, i2, i3, hi]

theorem filter_append_perm' (p : Index → Bool) (l : List Index) : (l.filter (fun i => !p i) ++ l.filter p).Perm l :=
  List.perm_append_comm.trans (List.filter_append_perm p l)

/-- Blocks of one spin. -/
def PureBlocks (part : List (List Index)) : Prop := ∀ b ∈ part, ∀ i ∈ b, ∀ j ∈ b, i.isBeta = j.isBeta

theorem filter_pure {b : List Index} (h : ∀ i ∈ b, ∀ j ∈ b, i.isBeta = j.isBeta) :
    (b.filter (fun i => !i.isBeta) = b ∧ b.filter Index.isBeta = []) ∨ (b.filter (fun i => !i.isBeta) = [] ∧ b.filter Index.isBeta = b) := by
  cases b with
  | nil => exact Or.inl ⟨rfl, rfl⟩
  | cons i b =>
    cases hi : i.isBeta
    · left
      constructor
      · rw [List.filter_eq_self]; intro j hj; rw [h j hj i (by simp), hi]; rfl
      · rw [List.filter_eq_nil_iff]; intro j hj; rw [h j hj i (by simp), hi]; simp
    · right
      constructor
      · rw [List.filter_eq_nil_iff]; intro j hj; rw [h j hj i (by simp), hi]; simp
      · rw [List.filter_eq_self]; intro j hj; rw [h j hj i (by simp), hi]

/-- The arrangements of labels of one spin. -/
theorem pure_rows {l : List Index} (hn : l.Nodup) (b : Bool) (hb : ∀ i ∈ l, i.isBeta = b) (part : List (List Index))
    (hp : part.flatten.Perm l) : ∃ rows : List (List Index), rows.Nodup ∧
      (∀ w, w ∈ rows ↔ w.Perm l ∧ ∀ blk ∈ part, blk.Sublist w) ∧
      rows.length * (part.map fun b => b.length.factorial).prod = l.length.factorial := by
  have hw : (⟨.antisym, l⟩ : Indices).WF := ⟨hn, by simp⟩
  obtain ⟨rows, h1, h2, h3, -⟩ := C11_ambit_permute_format ⟨.antisym, l⟩ rfl hw part hp
  obtain ⟨rows', h4, h5⟩ := C12_equals_number_emitted ⟨.antisym, l⟩ rfl hw part hp b hb
  obtain ⟨n, h6, h7⟩ := C12_multinomial ⟨.antisym, l⟩ rfl part hp
  rw [h1] at h4
  injection h4 with h4
  subst h4
  rw [h5] at h6
  injection h6 with h6
  refine ⟨rows.map Prod.snd, h2, fun w => ?_, ?_⟩
  · rw [h3 w]
    constructor
    · exact fun h => ⟨h.1, h.2.1⟩
    · intro h
      refine ⟨h.1, h.2, ?_⟩
      have c1 : l.map Index.isBeta = List.replicate l.length b := by
        rw [List.eq_replicate_iff]; simpa using hb
      have c2 : w.map Index.isBeta = List.replicate w.length b := by
        rw [List.eq_replicate_iff]
        simpa using fun i hi => hb i (h.1.mem_iff.1 hi)
      show w.map Index.isBeta = l.map Index.isBeta
      rw [c1, c2, h.1.length_eq]
  · rw [List.length_map, h6, h7]; rfl

theorem prod_factorial_split {part : List (List Index)} (h : PureBlocks part) :
    ((part.map (List.filter fun i => !i.isBeta)).map fun b => b.length.factorial).prod *
      ((part.map (List.filter Index.isBeta)).map fun b => b.length.factorial).prod = (part.map fun b => b.length.factorial).prod := by
  induction part with
  | nil => rfl
  | cons b part ih =>
    have ih := ih fun b' hb' => h b' (List.mem_cons_of_mem _ hb')
    simp only [List.map_cons, List.prod_cons]
    rw [← ih]
    rcases filter_pure (h b (by simp)) with ⟨e1, e2⟩ | ⟨e1, e2⟩
    · rw [e1, e2]; simp [mul_assoc]
    · rw [e1, e2]; simp [mul_left_comm]

/-- The number of arrangements: permutations of the alpha labels times permutations of the beta labels, divided by the permutations inside the
blocks. -/
theorem length_rows {l : List Index} (hn : l.Nodup) {part : List (List Index)} (hp : part.flatten.Perm l) (hpure : PureBlocks part)
    {rows : List (List Index)} (hr : rows.Nodup)
    (hm : ∀ w, w ∈ rows ↔ w.Perm l ∧ (∀ b ∈ part, b.Sublist w) ∧ w.map Index.isBeta = l.map Index.isBeta) :
    rows.length * (part.map fun b => b.length.factorial).prod = spinPermutations l := by
  have hfl : ∀ p : Index → Bool, (part.map (List.filter p)).flatten.Perm (l.filter p) := by
    intro p
    rw [← List.filter_flatten]
    exact hp.filter p
  obtain ⟨ra, a1, a2, a3⟩ := pure_rows (hn.filter fun i => !i.isBeta) false (by simp) _ (hfl _)
  obtain ⟨rb, b1, b2, b3⟩ := pure_rows (hn.filter Index.isBeta) true (by simp) _ (hfl _)
  have hcard : rows.length = ra.length * rb.length := by
    rw [← List.toFinset_card_of_nodup hr, ← List.toFinset_card_of_nodup a1, ← List.toFinset_card_of_nodup b1, ← Finset.card_product]
    refine Finset.card_bij (fun w _ => (w.filter (fun i => !i.isBeta), w.filter Index.isBeta)) ?_ ?_ ?_
    · intro w hw
      rw [List.mem_toFinset, hm] at hw
      obtain ⟨h1, h2, h3⟩ := hw
      rw [Finset.mem_product, List.mem_toFinset, List.mem_toFinset, a2, b2]
      refine ⟨⟨h1.filter _, ?_⟩, h1.filter _, ?_⟩
      · intro blk hblk
        obtain ⟨b, hb, rfl⟩ := List.mem_map.1 hblk
        exact (h2 b hb).filter _
      · intro blk hblk
        obtain ⟨b, hb, rfl⟩ := List.mem_map.1 hblk
        exact (h2 b hb).filter _
    · intro w hw w' hw' h
      rw [List.mem_toFinset, hm] at hw hw'
      injection h with e1 e2
      rw [← mergeSpins_self w, ← mergeSpins_self w', e1, e2, hw.2.2, hw'.2.2]
    · rintro ⟨a, b⟩ hab
      rw [Finset.mem_product, List.mem_toFinset, List.mem_toFinset, a2, b2] at hab
      obtain ⟨⟨p1, q1⟩, p2, q2⟩ := hab
      have ha : ∀ i ∈ a, i.isBeta = false := fun i hi => by simpa using (List.mem_filter.1 (p1.mem_iff.1 hi)).2
      have hb : ∀ i ∈ b, i.isBeta = true := fun i hi => (List.mem_filter.1 (p2.mem_iff.1 hi)).2
      have la : a.length = (l.map Index.isBeta).count false := by
        rw [p1.length_eq, List.count, List.countP_map, List.countP_eq_length_filter]
        congr 2
        funext i
        simp only [Function.comp]
        cases i.isBeta <;> rfl
      have lb : b.length = (l.map Index.isBeta).count true := by
        rw [p2.length_eq, List.count, List.countP_map, List.countP_eq_length_filter]
        congr 2
        funext i
        simp only [Function.comp]
        cases i.isBeta <;> rfl
      obtain ⟨m1, m2, m3⟩ := mergeSpins_spec _ a b ha hb la lb
      refine ⟨mergeSpins (l.map Index.isBeta) a b, ?_, by rw [m2, m3]⟩
      rw [List.mem_toFinset, hm]
      refine ⟨?_, ?_, m1⟩
      · refine (filter_append_perm' Index.isBeta _).symm.trans ?_
        rw [m2, m3]
        exact (p1.append p2).trans (filter_append_perm' _ _)
      · intro blk hblk
        rcases filter_pure (hpure blk hblk) with ⟨e1, -⟩ | ⟨-, e2⟩
        · rw [← e1]
          refine (q1 _ (List.mem_map.2 ⟨blk, hblk, rfl⟩)).trans ?_
          have := List.filter_sublist (p := fun i : Index => !i.isBeta) (l := mergeSpins (l.map Index.isBeta) a b)
          rwa [m2] at this
        · rw [← e2]
          refine (q2 _ (List.mem_map.2 ⟨blk, hblk, rfl⟩)).trans ?_
          have := List.filter_sublist (p := Index.isBeta) (l := mergeSpins (l.map Index.isBeta) a b)
          rwa [m3] at this
  rw [hcard, ← prod_factorial_split hpure]
  unfold spinPermutations
  rw [List.countP_eq_length_filter, List.countP_eq_length_filter, ← a3, ← b3]
  ring

theorem sublist_swap {l' pre post : List Index} {a b : Index} (h : l'.Sublist (pre ++ a :: b :: post)) (hab : ¬ (a ∈ l' ∧ b ∈ l')) :
    l'.Sublist (pre ++ b :: a :: post) := by
  have key : ∀ c, c ∉ l' → (c = a ∨ c = b) → l'.Sublist (pre ++ b :: a :: post) := by
    intro c hc hcab
    have e : l'.filter (fun i => decide (i ≠ c)) = l' := by
      rw [List.filter_eq_self]; intro i hi; simp only [ne_eq, decide_not, Bool.not_eq_true', decide_eq_false_iff_not]
      rintro rfl; exact hc hi
    rw [← e]
    refine (h.filter _).trans ?_
    have : (pre ++ a :: b :: post).filter (fun i => decide (i ≠ c)) = (pre ++ b :: a :: post).filter (fun i => decide (i ≠ c)) := by
      rw [List.filter_append, List.filter_append]
      congr 1
      rcases hcab with rfl | rfl
      · by_cases hb : b = c <;> simp [List.filter_cons, hb]
      · by_cases ha : a = c <;> simp [List.filter_cons, ha]
    rw [this]
    exact List.filter_sublist
  by_cases ha : a ∈ l'
  · exact key b (fun hb => hab ⟨ha, hb⟩) (Or.inr rfl)
  · exact key a ha (Or.inl rfl)

/-- The arrangements `ws` used for one side of the operator, and the number `n` of permutations the coefficient is divided by. -/
structure SideRows (l : List Index) (part : List (List Index)) (ws : List (List Index)) (n : Nat) : Prop where
  nodup : ws.Nodup
  perm : ∀ w ∈ ws, w.Perm l
  closed : ∀ pre a b post, pre ++ a :: b :: post ∈ ws →
    (∃ blk ∈ part, a ∈ blk ∧ b ∈ blk) ∨ a.isBeta ≠ b.isBeta ∨ pre ++ b :: a :: post ∈ ws
  count : ws.length * l.length.factorial = n * spinPermutations l
  pos : 0 < n

theorem pos_of_mul_eq {n a b : Nat} (h : n * a = b) (hb : 0 < b) : 0 < n := by
  rcases Nat.eq_zero_or_pos n with h0 | h0
  · rw [h0, Nat.zero_mul] at h; omega
  · exact h0

/-- All arrangements. -/
theorem sideRows_all (x : Indices) (ha : x.ty.isAntisym = true) (hw : x.WF) (part : List (List Index)) (hp : part.flatten.Perm x.list)
    (hpure : PureBlocks part) : ∃ ws n, x.ambitPermuteFormat part = .ok (ws.map fun w => (relSign x.list w, w)) ∧
      x.nMultisetPermutation part = .ok n ∧ SideRows x.list part ws n := by
  obtain ⟨f, hf, hrows⟩ := ambitPermuteFormat_eq x ha hw part hp
  obtain ⟨rows, h1, h2, h3, -⟩ := C11_ambit_permute_format x ha hw part hp
  obtain ⟨n, h4, h5⟩ := C12_multinomial x ha part hp
  rw [hrows] at h1
  injection h1 with h1
  refine ⟨_, n, hrows, h4, ?_⟩
  rw [← h1, List.map_map] at h2 h3
  have hid : (Prod.snd ∘ fun l : List Index => (signPow (invCount (l.map fun v => x.list.idxOf v)), l)) = id := rfl
  rw [hid, List.map_id] at h2 h3
  generalize ((multisetPerms (blockWord part)).map f).filter (fun l => decide (x.list.map Index.isBeta = l.map Index.isBeta)) = ws at *
  have hlen := length_rows hw.1 hp hpure h2 h3
  refine ⟨h2, fun w hw => ((h3 w).1 hw).1, ?_, ?_, pos_of_mul_eq h5 (Nat.factorial_pos _)⟩
  · intro pre a b post hm
    by_cases hblk : ∃ blk ∈ part, a ∈ blk ∧ b ∈ blk
    · exact Or.inl hblk
    · by_cases hsp : a.isBeta = b.isBeta
      · refine Or.inr (Or.inr ?_)
        obtain ⟨m1, m2, m3⟩ := (h3 _).1 hm
        refine (h3 _).2 ⟨(List.Perm.append_left pre (List.Perm.swap a b post)).trans m1, ?_, ?_⟩
        · intro blk hb
          exact sublist_swap (m2 blk hb) fun h => hblk ⟨blk, hb, h⟩
        · rw [← m3]; simp [hsp]
      · exact Or.inr (Or.inl hsp)
  · have hP : 0 < (part.map fun b => b.length.factorial).prod :=
      pos_of_mul_eq (by rw [Nat.mul_comm]; exact h5) (Nat.factorial_pos _)
    apply Nat.eq_of_mul_eq_mul_right hP
    have h5' : n * (part.map fun b => b.length.factorial).prod = x.list.length.factorial := h5
    calc ws.length * x.list.length.factorial * (part.map fun b => b.length.factorial).prod
        = (ws.length * (part.map fun b => b.length.factorial).prod) * x.list.length.factorial := by ring
      _ = spinPermutations x.list * (n * (part.map fun b => b.length.factorial).prod) := by rw [hlen, h5']
      _ = n * spinPermutations x.list * (part.map fun b => b.length.factorial).prod := by ring

/-- A single arrangement when there is at most one block. -/
theorem sideRows_one (x : Indices) (ha : x.ty.isAntisym = true) (part : List (List Index)) (hp : part.flatten.Perm x.list)
    (hpure : PureBlocks part) (h : x.existPermuteFormat part = .ok false) :
    x.nMultisetPermutation part = .ok 1 ∧ SideRows x.list part [x.list] 1 := by
  have hv : x.isValidPartition part = .ok () := by
    unfold Indices.existPermuteFormat at h
    cases hv : x.isValidPartition part with
    | ok v => rfl
    | error e => rw [hv] at h; cases h
  have hall : ∃ blk, (∀ i ∈ x.list, i ∈ blk) ∧ (∀ i ∈ blk, ∀ j ∈ blk, i.isBeta = j.isBeta) ∧ (x.list ≠ [] → blk ∈ part) := by
    unfold Indices.existPermuteFormat at h
    rw [hv] at h
    simp only [ha, if_true, bind, Except.bind] at h
    by_cases hs : x.size = 0
    · have : x.list = [] := List.length_eq_zero_iff.1 hs
      exact ⟨[], by simp [this], by simp, by simp [this]⟩
    · rw [if_neg hs] at h
      have hle : part.length ≤ 1 := by
        have h' : decide (part.length > 1) = false := by injection h
        simpa using h'
      match part, hle, hp, hpure with
      | [], _, hp, _ =>
        exact absurd (by unfold Indices.size; rw [← hp.length_eq]; rfl) hs
      | [b], _, hp, hpure =>
        refine ⟨b, fun i hi => ?_, hpure b (by simp), fun _ => by simp⟩
        simpa using hp.mem_iff.2 hi
      | _ :: _ :: _, hle, _, _ => simp at hle
  obtain ⟨blk, hb1, hb2, hb3⟩ := hall
  have hsame : ∀ i ∈ x.list, ∀ j ∈ x.list, i.isBeta = j.isBeta := fun i hi j hj => hb2 i (hb1 i hi) j (hb1 j hj)
  refine ⟨?_, by simp, by simp, ?_, ?_, by simp⟩
  · unfold Indices.nMultisetPermutation
    rw [hv, h]; rfl
  · intro pre a b post hm
    rw [List.mem_singleton] at hm
    have hane : x.list ≠ [] := by rw [← hm]; simp
    exact Or.inl ⟨blk, hb3 hane, hb1 a (by rw [← hm]; simp), hb1 b (by rw [← hm]; simp)⟩
  · unfold spinPermutations
    rw [List.countP_eq_length_filter, List.countP_eq_length_filter]
    rcases filter_pure hsame with ⟨e1, e2⟩ | ⟨e1, e2⟩ <;> rw [e1, e2] <;> simp

end Dsrg
