import Verif.Lemmas.Indices
import Verif.Spec.Antisymm

/-!
Properties C07-C13: lists of indices.
-/

namespace Dsrg

/-! ### C07 Indices never hold repeated labels and keep the given order -/

/-- Construction succeeds exactly for lists without repeats (and without beta labels for spin-orbital indices); the
object then holds the given list in the given order.  Otherwise `ValueError`. -/
theorem C07_make (ty : IType) (l : List Index) :
    (∀ x, Indices.make ty l = .ok x ↔
      x.ty = ty ∧ x.list = l ∧ l.Nodup ∧ (ty = .spinOrbital → ∀ i ∈ l, i.isBeta = false)) ∧
    (∀ e, Indices.make ty l = .error e → e = .valueError) := by
  unfold Indices.make
  have hany : (ty = .spinOrbital ∧ l.any Index.isBeta = true) ↔ ¬ (ty = .spinOrbital → ∀ i ∈ l, i.isBeta = false) := by
    simp [List.any_eq_true]
  constructor
  · intro x
    by_cases hn : l.Nodup
    · rw [if_neg (not_not.2 hn)]
      by_cases hb : ty = .spinOrbital ∧ l.any Index.isBeta = true
      · rw [if_pos hb]
        simp [hany.1 hb]
      · rw [if_neg hb]
        rw [hany, not_not] at hb
        obtain ⟨t, lx⟩ := x
        simp only [Except.ok.injEq, Indices.mk.injEq, hn, true_and]
        constructor
        · rintro ⟨rfl, rfl⟩; exact ⟨rfl, rfl, hb⟩
        · rintro ⟨rfl, rfl, -⟩; exact ⟨rfl, rfl⟩
    · rw [if_pos hn]
      simp [hn]
  · intro e h
    split at h
    · simpa [eq_comm] using h
    · split at h
      · simpa [eq_comm] using h
      · simp at h

/-- Concatenation of two objects succeeds exactly when they do not overlap (and, if the first is spin-orbital, the
second has no beta labels), and then lists the labels of the first followed by those of the second. -/
theorem C07_add (tx ty : IType) (lx ly : List Index) (x y : Indices) (hx : Indices.make tx lx = .ok x)
    (hy : Indices.make ty ly = .ok y) (z : Indices) :
    x.add y = .ok z ↔ z.ty = x.ty ∧ z.list = x.list ++ y.list ∧ (∀ i ∈ x.list, i ∉ y.list) ∧
      (x.ty = .spinOrbital → ∀ i ∈ y.list, i.isBeta = false) := by
  rw [(C07_make tx lx).1] at hx
  rw [(C07_make ty ly).1] at hy
  obtain ⟨rfl, rfl, hxn, hxb⟩ := hx
  obtain ⟨rfl, rfl, hyn, -⟩ := hy
  rw [Indices.add, (C07_make _ _).1, List.nodup_append]
  constructor
  · rintro ⟨h1, h2, ⟨-, -, h3⟩, h4⟩
    exact ⟨h1, h2, fun i hi hj => h3 i hi i hj rfl, fun h i hi => h4 h i (List.mem_append_right _ hi)⟩
  · rintro ⟨h1, h2, h3, h4⟩
    refine ⟨h1, h2, ⟨hxn, hyn, ?_⟩, ?_⟩
    · rintro i hi j hj rfl; exact h3 i hi hj
    · intro h i hi
      rcases List.mem_append.1 hi with hi | hi
      · exact hxb h i hi
      · exact h4 h i hi

example : ∃ x y z, Indices.make .spinIntegrated [⟨⟨.g, true⟩, 0⟩, ⟨⟨.a, false⟩, 3⟩] = .ok x ∧
    Indices.make .spinIntegrated [⟨⟨.g, false⟩, 0⟩] = .ok y ∧ x.add y = .ok z ∧ z.size = 3 := ⟨_, _, _, rfl, rfl, rfl, rfl⟩
example : Indices.make .spinOrbital [⟨⟨.g, true⟩, 0⟩] = .error .valueError := by decide

/-! ### C08 Merge sort returns a sorted permutation and the exact inversion number -/

/-- For every list over every total order: sorted rearrangement and exact number of inverted pairs of positions. -/
theorem C08_sort_and_count {α : Type} [LinearOrder α] (l : List α) :
    (sortCount l).1.Perm l ∧ (sortCount l).1.Pairwise (· ≤ ·) ∧ (sortCount l).2 = numInversions l := by
  obtain ⟨h1, h2, h3⟩ := sortCount_spec l
  exact ⟨h1, h2, by rw [h3, invCount_eq_numInversions]⟩

example : sortCount [3, 1, 2, 1] = ([1, 1, 2, 3], 4) := by decide +kernel

/-! ### C09 Canonicalising antisymmetric indices is a signed sort -/

/-- A list of an `Indices` object: no repeats. -/
def Indices.WF (x : Indices) : Prop :=
  x.list.Nodup ∧ (x.ty = .spinOrbital → ∀ i ∈ x.list, i.isBeta = false)

/-- `WF` holds for exactly the objects the constructor can return. -/
theorem Indices.wf_iff_make (x : Indices) : x.WF ↔ Indices.make x.ty x.list = .ok x := by
  rw [(C07_make _ _).1]
  simp [Indices.WF]

theorem canonicalize_list (x : Indices) (ha : x.ty.isAntisym = true) (hw : x.list.Nodup) :
    x.canonicalize.1.ty = x.ty ∧ x.canonicalize.1.list.Perm x.list ∧ x.canonicalize.1.list.Pairwise (· < ·) ∧
      x.canonicalize.2 = signPow (invCount x.list) := by
  rw [Indices.canonicalize, if_pos ha]
  split
  · rename_i h
    unfold Indices.size at h
    obtain ⟨t, l⟩ := x
    match l with
    | [] => simp [invCount, signPow]
    | [i] => simp [invCount, signPow]
    | i :: j :: l => simp at h
  · obtain ⟨h1, h2, h3⟩ := sortCount_spec x.list
    refine ⟨rfl, h1, ?_, by rw [← h3]⟩
    have hnd : (sortCount x.list).1.Nodup := (h1.nodup_iff).2 hw
    exact (h2.and hnd).imp fun h => lt_of_le_of_ne h.1 h.2

/-- Antisymmetric indices: `canonicalize` returns the strictly increasing arrangement of the same labels, with the
parity of the number of inversions as sign. -/
theorem C09_canonicalize (x : Indices) (ha : x.ty.isAntisym = true) (hw : x.WF) :
    x.canonicalize.1.ty = x.ty ∧ x.canonicalize.1.WF ∧ x.canonicalize.1.list.Perm x.list ∧
      x.canonicalize.1.list.Pairwise (· < ·) ∧ x.canonicalize.2 = (-1) ^ numInversions x.list := by
  obtain ⟨h1, h2, h3, h4⟩ := canonicalize_list x ha hw.1
  refine ⟨h1, ⟨(h2.nodup_iff).2 hw.1, ?_⟩, h2, h3, by rw [h4, ← invCount_eq_numInversions]; rfl⟩
  intro h i hi
  exact hw.2 (by rw [← h1]; exact h) i (h2.subset hi)

/-- Every antisymmetric function takes on the input the value `sign` times its value on the output. -/
theorem C09_antisymmetric_value {M : Type} [AddCommGroup M] (F : List Index → M) (hF : AntisymmFn F) (x : Indices)
    (hw : x.WF) : F x.list = x.canonicalize.2 • F x.canonicalize.1.list := by
  by_cases ha : x.ty.isAntisym = true
  · obtain ⟨-, h2, h3, h4⟩ := canonicalize_list x ha hw.1
    rw [h4]
    exact hF.sorted hw.1 h2.symm (h3.imp le_of_lt)
  · rw [Indices.canonicalize, if_neg ha]; simp

/-- Two arrangements of the same labels reach the same canonical list. -/
theorem C09_canonical_unique (x y : Indices) (ha : x.ty.isAntisym = true) (ht : x.ty = y.ty) (hx : x.WF) (hy : y.WF)
    (hp : x.list.Perm y.list) : x.canonicalize.1 = y.canonicalize.1 := by
  obtain ⟨h1, h2, h3, -⟩ := canonicalize_list x ha hx.1
  obtain ⟨h1', h2', h3', -⟩ := canonicalize_list y (ht ▸ ha) hy.1
  have hl : x.canonicalize.1.list = y.canonicalize.1.list :=
    List.Perm.eq_of_pairwise' (r := (· < ·)) h3 h3' (h2.trans (hp.trans h2'.symm))
  have ht' : x.canonicalize.1.ty = y.canonicalize.1.ty := by rw [h1, h1', ht]
  generalize x.canonicalize.1 = a at *
  generalize y.canonicalize.1 = b at *
  obtain ⟨_, _⟩ := a; obtain ⟨_, _⟩ := b
  simp_all

/-- Canonicalising again changes nothing and has sign +1. -/
theorem C09_idempotent (x : Indices) (hw : x.WF) : x.canonicalize.1.canonicalize = (x.canonicalize.1, 1) := by
  by_cases ha : x.ty.isAntisym = true
  · obtain ⟨h1, hw', h2, h3, -⟩ := C09_canonicalize x ha hw
    have ha' : x.canonicalize.1.ty.isAntisym = true := by rw [h1]; exact ha
    obtain ⟨g1, g2, g3, g4⟩ := canonicalize_list x.canonicalize.1 ha' hw'.1
    refine Prod.ext ?_ ?_
    · have hl : x.canonicalize.1.canonicalize.1.list = x.canonicalize.1.list :=
        List.Perm.eq_of_pairwise' (r := (· < ·)) g3 h3 g2
      generalize x.canonicalize.1.canonicalize.1 = a at *
      generalize x.canonicalize.1 = b at *
      obtain ⟨_, _⟩ := a; obtain ⟨_, _⟩ := b
      simp_all
    · rw [g4, invCount_eq_zero_of_sorted (h3.imp le_of_lt)]; rfl
  · simp [Indices.canonicalize, ha]

/-- Exchanging two neighbouring labels flips the sign. -/
theorem C09_swap_flips_sign (ty : IType) (ha : ty.isAntisym = true) (pre post : List Index) (a b : Index)
    (hn : (pre ++ a :: b :: post).Nodup) :
    (Indices.canonicalize ⟨ty, pre ++ b :: a :: post⟩).2 = - (Indices.canonicalize ⟨ty, pre ++ a :: b :: post⟩).2 := by
  have hn' : (pre ++ b :: a :: post).Nodup := (((List.Perm.swap a b post).append_left pre).nodup_iff).2 hn
  rw [(canonicalize_list ⟨ty, pre ++ b :: a :: post⟩ ha hn').2.2.2,
    (canonicalize_list ⟨ty, pre ++ a :: b :: post⟩ ha hn).2.2.2]
  exact antisymmFn_sign pre post a b hn

/-- Non-antisymmetric indices are returned unchanged with sign +1. -/
theorem C09_not_antisymmetric (x : Indices) (ha : x.ty.isAntisym = false) : x.canonicalize = (x, 1) := by
  simp [Indices.canonicalize, ha]

/-- Which classes of labels are reordered: general antisymmetric, spin-orbital and spin-integrated labels, and no others. -/
theorem C09_classes (x : Indices) (hw : x.WF) :
    ((x.ty = .antisym ∨ x.ty = .spinOrbital ∨ x.ty = .spinIntegrated) →
      x.canonicalize.1.list.Pairwise (· < ·) ∧ x.canonicalize.2 = (-1) ^ numInversions x.list) ∧
    (x.ty = .plain ∨ x.ty = .spinAdapted → x.canonicalize = (x, 1)) := by
  constructor
  · intro h
    have ha : x.ty.isAntisym = true := by rcases h with h | h | h <;> rw [h] <;> rfl
    exact (C09_canonicalize x ha hw).2.2.2
  · intro h
    exact C09_not_antisymmetric x (by rcases h with h | h <;> rw [h] <;> rfl)

example : (⟨.spinOrbital, [⟨⟨.a, false⟩, 1⟩, ⟨⟨.g, false⟩, 2⟩, ⟨⟨.a, false⟩, 0⟩]⟩ : Indices).WF := by
  constructor <;> decide
example : (⟨.spinOrbital, [⟨⟨.g, false⟩, 2⟩, ⟨⟨.a, false⟩, 1⟩, ⟨⟨.a, false⟩, 0⟩]⟩ : Indices).canonicalize =
    (⟨.spinOrbital, [⟨⟨.g, false⟩, 2⟩, ⟨⟨.a, false⟩, 0⟩, ⟨⟨.a, false⟩, 1⟩]⟩, -1) := by decide +kernel
/-- Antisymmetric functions exist: the parity of the inversions itself. -/
example : AntisymmFn (fun l : List Index => signPow (invCount l)) := antisymmFn_sign

/-! ### C10 count_permutations measures the relative parity -/

theorem toFinset_eq_iff_perm {x y : List Index} (hx : x.Nodup) (hy : y.Nodup) : x.toFinset = y.toFinset ↔ x.Perm y := by
  rw [List.perm_ext_iff_of_nodup hx hy]
  constructor
  · intro h a; rw [← List.mem_toFinset, h, List.mem_toFinset]
  · intro h; ext a; simpa using h a

/-- `ValueError` exactly when the label sets differ. -/
theorem C10_error (x y : Indices) :
    (x.countPermutations y = .error .valueError ↔ ¬ ∀ i, i ∈ x.list ↔ i ∈ y.list) ∧
    ∀ e, x.countPermutations y = .error e → e = .valueError := by
  unfold Indices.countPermutations Indices.isPermutation
  have hiff : (x.list.toFinset = y.list.toFinset) ↔ ∀ i, i ∈ x.list ↔ i ∈ y.list := by
    rw [Finset.ext_iff]; simp
  constructor
  · by_cases h : x.list.toFinset = y.list.toFinset
    · simp [h, hiff.1 h]
    · simp only [h, decide_false, Bool.false_eq_true, if_false, true_iff]
      exact fun h' => h (hiff.2 h')
  · intro e he
    split at he
    · simp at he
    · simpa [eq_comm] using he

/-- For rearrangements of each other the count exists, its parity is the sign for every antisymmetric function, it is
zero on identical lists, and the signs multiply along a chain. -/
theorem C10_relative_sign (x y z : Indices) (hx : x.WF) (hy : y.WF) (hz : z.WF) (hxy : x.list.Perm y.list)
    (hyz : y.list.Perm z.list) :
    ∃ m n k, x.countPermutations y = .ok m ∧ y.countPermutations z = .ok n ∧ x.countPermutations z = .ok k ∧
      (∀ {M : Type} [AddCommGroup M] (F : List Index → M), AntisymmFn F → F x.list = (-1 : Int) ^ m • F y.list) ∧
      (-1 : Int) ^ k = (-1) ^ m * (-1) ^ n ∧ (x.list = y.list → m = 0) := by
  have h1 : x.list.toFinset = y.list.toFinset := (toFinset_eq_iff_perm hx.1 hy.1).2 hxy
  have h2 : y.list.toFinset = z.list.toFinset := (toFinset_eq_iff_perm hy.1 hz.1).2 hyz
  refine ⟨invCount (y.list.map fun v => x.list.idxOf v), invCount (z.list.map fun v => y.list.idxOf v),
    invCount (z.list.map fun v => x.list.idxOf v), ?_, ?_, ?_, ?_, ?_, ?_⟩
  · simp [Indices.countPermutations, Indices.isPermutation, h1]
  · simp [Indices.countPermutations, Indices.isPermutation, h2]
  · simp [Indices.countPermutations, Indices.isPermutation, h1, h2]
  · intro M _ F hF
    exact hF.relSign hx.1 hxy
  · exact relSign_mul hx.1 hxy hyz
  · intro h
    rw [← h]
    apply invCount_eq_zero_of_sorted
    rw [List.pairwise_map, List.pairwise_iff_getElem]
    intro i j hi hj hij
    rw [hx.1.idxOf_getElem i hi, hx.1.idxOf_getElem j hj]
    exact hij.le

example : (⟨.antisym, [⟨⟨.a, false⟩, 1⟩, ⟨⟨.a, false⟩, 2⟩, ⟨⟨.a, false⟩, 0⟩]⟩ : Indices).countPermutations
    ⟨.antisym, [⟨⟨.a, false⟩, 0⟩, ⟨⟨.a, false⟩, 2⟩, ⟨⟨.a, false⟩, 1⟩]⟩ = .ok 3 := by decide +kernel

/-! ### C11 ambit_permute_format -/

theorem ambitPermuteFormat_eq (x : Indices) (ha : x.ty.isAntisym = true) (hw : x.WF) (part : List (List Index))
    (hp : part.flatten.Perm x.list) :
    ∃ f : List Nat → List Index, (∀ w, w.Perm (blockWord part) → fillWord part w = .ok (f w)) ∧
      x.ambitPermuteFormat part = .ok ((((multisetPerms (blockWord part)).map f).filter
        fun l => decide (x.list.map Index.isBeta = l.map Index.isBeta)).map
          fun l => (signPow (invCount (l.map fun v => x.list.idxOf v)), l)) := by
  have hfill : ∀ w, w.Perm (blockWord part) → ∃ l, fillWord part w = .ok l ∧ l.Perm part.flatten := by
    intro w hw
    obtain ⟨l, h1, h2, -⟩ := fillWord_ok w part (perm_blockWord_iff.1 hw)
    exact ⟨l, h1, h2⟩
  let f : List Nat → List Index := fun w => match fillWord part w with | .ok l => l | .error _ => []
  have hf : ∀ w, w.Perm (blockWord part) → fillWord part w = .ok (f w) ∧ (f w).Perm x.list := by
    intro w hw
    obtain ⟨l, h1, h2⟩ := hfill w hw
    have : f w = l := by simp only [f, h1]
    rw [this]; exact ⟨h1, h2.trans hp⟩
  refine ⟨f, fun w hw => (hf w hw).1, ?_⟩
  have hvalid : x.isValidPartition part = .ok () := by
    unfold Indices.isValidPartition
    rw [if_pos]
    rw [List.all_eq_true]
    intro b hb
    rw [List.all_eq_true]
    intro i hi
    simp only [decide_eq_true_eq]
    exact hp.subset (List.mem_flatten.2 ⟨b, hb, hi⟩)
  unfold Indices.ambitPermuteFormat
  rw [hvalid]
  simp only [ha, if_true]
  have hstep := mapM_except_ok (fun perm => do
      let l ← fillWord part perm
      if x.list.map Index.isBeta ≠ l.map Index.isBeta then pure none
      else
        let permuted ← Indices.make x.ty l
        let n ← x.countPermutations permuted
        pure (some (signPow n, l)))
    (fun perm => if x.list.map Index.isBeta ≠ (f perm).map Index.isBeta then none
      else some (signPow (invCount ((f perm).map fun v => x.list.idxOf v)), f perm))
    (multisetPerms (blockWord part)) (by
      intro w hwm
      obtain ⟨h1, h2⟩ := hf w (mem_multisetPerms.1 hwm)
      have hmake : Indices.make x.ty (f w) = .ok ⟨x.ty, f w⟩ := by
        rw [(C07_make _ _).1]
        exact ⟨rfl, rfl, (h2.nodup_iff).2 hw.1, fun h i hi => hw.2 h i (h2.subset hi)⟩
      have hcount : x.countPermutations ⟨x.ty, f w⟩ = .ok (invCount ((f w).map fun v => x.list.idxOf v)) := by
        have : x.list.toFinset = (f w).toFinset := (toFinset_eq_iff_perm hw.1 ((h2.nodup_iff).2 hw.1)).2 h2.symm
        simp [Indices.countPermutations, Indices.isPermutation, this]
      rw [h1]
      show (if _ then _ else _) = _
      split
      · rfl
      · rw [hmake]
        show (do let n ← x.countPermutations ⟨x.ty, f w⟩; pure (some (signPow n, f w))) = _
        rw [hcount]; rfl)
  show (Except.bind _ fun rows => Except.ok (List.filterMap id rows)) = _
  erw [hstep]
  show Except.ok _ = _
  congr 1
  clear hstep hfill hf hvalid
  induction multisetPerms (blockWord part) with
  | nil => rfl
  | cons w ws ih =>
    simp only [List.map_cons, List.filterMap_cons, List.filter_cons, id] at ih ⊢
    by_cases h : x.list.map Index.isBeta = (f w).map Index.isBeta
    · simp only [h, ne_eq, not_true_eq_false, if_false, decide_true, if_true, List.map_cons] at ih ⊢
      rw [ih]
    · simp only [h, ne_eq, not_false_eq_true, if_true, decide_false, Bool.false_eq_true, if_false] at ih ⊢
      exact ih

/-- For antisymmetric indices and a partition of them into blocks: every rearrangement of the labels that keeps the
order inside each block and the spin pattern is listed exactly once, nothing else is listed, and each comes with the
sign relating it to the original (for every antisymmetric function). -/
theorem C11_ambit_permute_format (x : Indices) (ha : x.ty.isAntisym = true) (hw : x.WF) (part : List (List Index))
    (hp : part.flatten.Perm x.list) :
    ∃ rows, x.ambitPermuteFormat part = .ok rows ∧ (rows.map Prod.snd).Nodup ∧
      (∀ l, l ∈ rows.map Prod.snd ↔
        l.Perm x.list ∧ (∀ b ∈ part, b.Sublist l) ∧ l.map Index.isBeta = x.list.map Index.isBeta) ∧
      (∀ r ∈ rows, (r.1 = 1 ∨ r.1 = -1) ∧
        ∀ {M : Type} [AddCommGroup M] (F : List Index → M), AntisymmFn F → F x.list = r.1 • F r.2) := by
  obtain ⟨f, hf, hrows⟩ := ambitPermuteFormat_eq x ha hw part hp
  refine ⟨_, hrows, ?_, ?_, ?_⟩
  · rw [List.map_map]
    have : (Prod.snd ∘ fun l : List Index => (signPow (invCount (l.map fun v => x.list.idxOf v)), l)) = id := rfl
    rw [this, List.map_id]
    apply List.Nodup.filter
    rw [List.Nodup, List.pairwise_map]
    refine List.Pairwise.imp_of_mem ?_ (nodup_multisetPerms (blockWord part))
    intro w w' hw1 hw2 hne heq
    apply hne
    have hnf : part.flatten.Nodup := (hp.nodup_iff).2 hw.1
    rw [mem_multisetPerms] at hw1 hw2
    obtain ⟨l, h1, -, -, h4⟩ := fillWord_ok w part (perm_blockWord_iff.1 hw1)
    obtain ⟨l', h1', -, -, h4'⟩ := fillWord_ok w' part (perm_blockWord_iff.1 hw2)
    have e1 : f w = l := by have := hf w hw1; rw [h1] at this; simpa [eq_comm] using this
    have e2 : f w' = l' := by have := hf w' hw2; rw [h1'] at this; simpa [eq_comm] using this
    have : l = l' := by rw [← e1, ← e2, heq]
    subst this
    exact fillWord_injective hnf h4 h4'
  · intro l
    rw [List.map_map]
    have : (Prod.snd ∘ fun l : List Index => (signPow (invCount (l.map fun v => x.list.idxOf v)), l)) = id := rfl
    rw [this, List.map_id, List.mem_filter, List.mem_map]
    simp only [decide_eq_true_eq]
    constructor
    · rintro ⟨⟨w, hwm, rfl⟩, hspin⟩
      rw [mem_multisetPerms] at hwm
      obtain ⟨l, h1, h2, h3, -⟩ := fillWord_ok w part (perm_blockWord_iff.1 hwm)
      have e1 : f w = l := by have := hf w hwm; rw [h1] at this; simpa [eq_comm] using this
      rw [e1] at hspin ⊢
      exact ⟨h2.trans hp, h3, hspin.symm⟩
    · rintro ⟨h1, h2, h3⟩
      refine ⟨?_, h3.symm⟩
      obtain ⟨w, hw1, hw2⟩ := fillWord_surjective l part ((h1.nodup_iff).2 hw.1) (h1.trans hp.symm) h2
      have hwp := perm_blockWord_iff.2 hw2
      refine ⟨w, mem_multisetPerms.2 hwp, ?_⟩
      have := hf w hwp; rw [hw1] at this; simpa [eq_comm] using this
  · intro r hr
    rw [List.mem_map] at hr
    obtain ⟨l, hl, rfl⟩ := hr
    rw [List.mem_filter, List.mem_map] at hl
    obtain ⟨⟨w, hwm, rfl⟩, -⟩ := hl
    refine ⟨signPow_eq _, ?_⟩
    intro M _ F hF
    rw [mem_multisetPerms] at hwm
    obtain ⟨l, h1, h2, -, -⟩ := fillWord_ok w part (perm_blockWord_iff.1 hwm)
    have e1 : f w = l := by have := hf w hwm; rw [h1] at this; simpa [eq_comm] using this
    rw [e1]
    exact hF.relSign hw.1 (h2.trans hp).symm

/-- For other index kinds only the original order is produced, with sign +1. -/
theorem C11_not_antisymmetric (x : Indices) (ha : x.ty.isAntisym = false) (part : List (List Index))
    (hp : ∀ b ∈ part, ∀ i ∈ b, i ∈ x.list) : x.ambitPermuteFormat part = .ok [(1, x.list)] := by
  have hvalid : x.isValidPartition part = .ok () := by
    unfold Indices.isValidPartition
    rw [if_pos]
    rw [List.all_eq_true]
    intro b hb
    rw [List.all_eq_true]
    intro i hi
    simpa using hp b hb i hi
  simp only [Indices.ambitPermuteFormat, hvalid, ha]
  rfl

example : Indices.ambitPermuteFormat ⟨.spinOrbital, [⟨⟨.a, false⟩, 0⟩, ⟨⟨.a, false⟩, 1⟩, ⟨⟨.c, false⟩, 0⟩]⟩
    [[⟨⟨.a, false⟩, 0⟩, ⟨⟨.a, false⟩, 1⟩], [⟨⟨.c, false⟩, 0⟩]] = .ok
    [(1, [⟨⟨.a, false⟩, 0⟩, ⟨⟨.a, false⟩, 1⟩, ⟨⟨.c, false⟩, 0⟩]), (-1, [⟨⟨.a, false⟩, 0⟩, ⟨⟨.c, false⟩, 0⟩, ⟨⟨.a, false⟩, 1⟩]),
     (1, [⟨⟨.c, false⟩, 0⟩, ⟨⟨.a, false⟩, 0⟩, ⟨⟨.a, false⟩, 1⟩])] := by decide +kernel

/-! ### C12 n_multiset_permutation is the multinomial coefficient -/

theorem prod_factorial_range (part : List (List Index)) :
    ∏ v ∈ Finset.range part.length, ((part.getD v []).length).factorial =
      (part.map fun b => b.length.factorial).prod := by
  induction part with
  | nil => rfl
  | cons b part ih =>
    rw [List.length_cons, Finset.prod_range_succ']
    simp only [List.getD_cons_succ, List.getD_cons_zero, List.map_cons, List.prod_cons, ih]
    ring

theorem nMultiset_eq (x : Indices) (ha : x.ty.isAntisym = true) (part : List (List Index))
    (hp : part.flatten.Perm x.list) :
    x.nMultisetPermutation part = .ok (multisetPerms (blockWord part)).length ∧
      (multisetPerms (blockWord part)).length * (part.map fun b => b.length.factorial).prod = x.size.factorial := by
  have hvalid : x.isValidPartition part = .ok () := by
    unfold Indices.isValidPartition
    rw [if_pos]
    rw [List.all_eq_true]
    intro b hb
    rw [List.all_eq_true]
    intro i hi
    simp only [decide_eq_true_eq]
    exact hp.subset (List.mem_flatten.2 ⟨b, hb, hi⟩)
  have hcount : (multisetPerms (blockWord part)).length * (part.map fun b => b.length.factorial).prod =
      x.size.factorial := by
    have := length_multisetPerms (blockWord part) (Finset.range part.length) (by
      intro v hv
      rw [Finset.mem_range]
      by_contra hc
      have := List.count_pos_iff.2 hv
      rw [count_blockWord, List.getD_eq_getElem?_getD, List.getElem?_eq_none (by omega)] at this
      simp at this)
    simp only [count_blockWord] at this
    rw [prod_factorial_range, length_blockWord, hp.length_eq] at this
    exact this
  refine ⟨?_, hcount⟩
  unfold Indices.nMultisetPermutation Indices.existPermuteFormat
  rw [hvalid]
  simp only [ha, if_true]
  by_cases hs : x.size = 0
  · rw [if_pos hs]
    have hone : (multisetPerms (blockWord part)).length = 1 := by
      rw [hs, Nat.factorial_zero] at hcount
      exact Nat.eq_one_of_mul_eq_one_right hcount
    show Except.ok 1 = _
    rw [hone]
  · rw [if_neg hs]
    by_cases hl : part.length > 1
    · show (if (!decide (part.length > 1)) = true then _ else _) = _
      simp [hl]
      rfl
    · show (if (!decide (part.length > 1)) = true then _ else _) = _
      simp only [hl, decide_false, Bool.not_false, if_true]
      match part, hl, hp, hcount with
      | [], _, hp, hcount =>
        have : x.size = 0 := by unfold Indices.size; rw [← hp.length_eq]; rfl
        exact absurd this hs
      | [b], _, hp, hcount =>
        have hb : b.length = x.size := by unfold Indices.size; rw [← hp.length_eq]; simp
        simp only [List.map_cons, List.map_nil, List.prod_cons, List.prod_nil, mul_one, hb] at hcount
        have : (multisetPerms (blockWord [b])).length = 1 :=
          Nat.eq_of_mul_eq_mul_right (Nat.factorial_pos x.size) (by rw [hcount, one_mul])
        rw [this]; rfl
      | _ :: _ :: _, h, _, _ => simp at h

/-- `n_multiset_permutation(part)` times the factorials of the block sizes is the factorial of the number of labels. -/
theorem C12_multinomial (x : Indices) (ha : x.ty.isAntisym = true) (part : List (List Index))
    (hp : part.flatten.Perm x.list) :
    ∃ n, x.nMultisetPermutation part = .ok n ∧ n * (part.map fun b => b.length.factorial).prod = x.size.factorial :=
  ⟨_, nMultiset_eq x ha part hp⟩

/-- When all labels have the same spin, it is the number of arrangements produced by `ambit_permute_format`. -/
theorem C12_equals_number_emitted (x : Indices) (ha : x.ty.isAntisym = true) (hw : x.WF) (part : List (List Index))
    (hp : part.flatten.Perm x.list) (b : Bool) (hb : ∀ i ∈ x.list, i.isBeta = b) :
    ∃ rows, x.ambitPermuteFormat part = .ok rows ∧ x.nMultisetPermutation part = .ok rows.length := by
  obtain ⟨f, hf, hrows⟩ := ambitPermuteFormat_eq x ha hw part hp
  refine ⟨_, hrows, ?_⟩
  rw [(nMultiset_eq x ha part hp).1, List.length_map]
  congr 1
  rw [List.filter_eq_self.2, List.length_map]
  intro l hl
  rw [List.mem_map] at hl
  obtain ⟨w, hwm, rfl⟩ := hl
  rw [mem_multisetPerms] at hwm
  obtain ⟨l, h1, h2, -, -⟩ := fillWord_ok w part (perm_blockWord_iff.1 hwm)
  have e1 : f w = l := by have := hf w hwm; rw [h1] at this; simpa [eq_comm] using this
  rw [e1]
  have hlb : ∀ i ∈ l, i.isBeta = b := fun i hi => hb i ((h2.trans hp).subset hi)
  rw [decide_eq_true_eq]
  have c1 : x.list.map Index.isBeta = List.replicate x.list.length b := by
    rw [List.eq_replicate_iff]; simpa using hb
  have c2 : l.map Index.isBeta = List.replicate l.length b := by
    rw [List.eq_replicate_iff]; simpa using hlb
  rw [c1, c2, (h2.trans hp).length_eq]

example : Indices.nMultisetPermutation ⟨.spinOrbital, [⟨⟨.a, false⟩, 0⟩, ⟨⟨.a, false⟩, 1⟩, ⟨⟨.c, false⟩, 0⟩, ⟨⟨.v, false⟩, 0⟩]⟩
    [[⟨⟨.a, false⟩, 0⟩, ⟨⟨.a, false⟩, 1⟩], [⟨⟨.c, false⟩, 0⟩], [⟨⟨.v, false⟩, 0⟩]] = .ok 12 := by decide +kernel

/-! ### C13 Spin cases of an index list -/

theorem mapM_make_spinIntegrated (ls : List (List Index)) (h : ∀ l ∈ ls, l.Nodup) :
    ls.mapM (Indices.make .spinIntegrated) = .ok (ls.map fun l => ⟨.spinIntegrated, l⟩) := by
  apply mapM_except_ok
  intro l hl
  rw [(C07_make _ _).1]
  exact ⟨rfl, rfl, h l hl, by simp⟩

/-- All spin labelings of a spin-orbital list, each exactly once. -/
theorem C13_all_spin_cases (x : Indices) (ht : x.ty = .spinOrbital) (hw : x.WF) :
    ∃ cases, x.generateSpinCases none = .ok cases ∧ cases.Nodup ∧ cases.length = 2 ^ x.size ∧
      ∀ y, y ∈ cases ↔ y.ty = .spinIntegrated ∧ y.list.map Index.toAlpha = x.list := by
  have hb : ∀ i ∈ x.list, i.isBeta = false := hw.2 ht
  have hlen : ∀ spins, spins ∈ pyProduct (x.list.map fun _ => [false, true]) ↔ spins.length = x.list.length := by
    intro spins
    rw [mem_pyProduct]
    constructor
    · intro h; simpa using h.length_eq
    · intro h
      rw [List.forall₂_iff_get]
      refine ⟨by simpa using h, ?_⟩
      intro i h1 h2
      simp
  refine ⟨((pyProduct (x.list.map fun _ => [false, true])).map (applySpins x.list)).map
    fun l => ⟨.spinIntegrated, l⟩, ?_, ?_, ?_, ?_⟩
  · rw [Indices.generateSpinCases, if_pos ht]
    apply mapM_make_spinIntegrated
    intro l hl
    rw [List.mem_map] at hl
    obtain ⟨spins, hs, rfl⟩ := hl
    exact nodup_of_toAlpha (applySpins_spec hb ((hlen spins).1 hs)).1 hw.1
  · apply List.Nodup.map
    · intro a b h; simpa using h
    · rw [List.Nodup, List.pairwise_map]
      refine List.Pairwise.imp_of_mem ?_ (nodup_pyProduct (pools := x.list.map fun _ => [false, true]) ?_)
      · intro s s' hs hs' hne heq
        apply hne
        rw [← (applySpins_spec hb ((hlen s).1 hs)).2, heq, (applySpins_spec hb ((hlen s').1 hs')).2]
      · intro p hp
        rw [List.mem_map] at hp
        obtain ⟨_, _, rfl⟩ := hp
        decide
  · rw [List.length_map, List.length_map, length_pyProduct, List.map_map]
    have : (List.length ∘ fun _ : Index => [false, true]) = fun _ => 2 := rfl
    rw [this, List.map_const', List.prod_replicate]
    rfl
  · intro y
    simp only [List.mem_map]
    constructor
    · rintro ⟨l, ⟨spins, hs, rfl⟩, rfl⟩
      exact ⟨rfl, (applySpins_spec hb ((hlen spins).1 hs)).1⟩
    · rintro ⟨h1, h2⟩
      have hl : (y.list.map Index.isBeta).length = x.list.length := by
        rw [← h2]; simp
      refine ⟨y.list, ⟨y.list.map Index.isBeta, (hlen _).2 hl, ?_⟩, by cases y; simp_all⟩
      obtain ⟨g1, g2⟩ := applySpins_spec hb hl
      apply eq_of_spin_eq
      · rw [g1, h2]
      · rw [g2]

/-- With a requested number of beta labels: exactly the labelings with that many beta labels, each exactly once. -/
theorem C13_fixed_beta (x : Indices) (ht : x.ty = .spinOrbital) (hw : x.WF) (n : Nat) (hn : n ≤ x.size) :
    ∃ cases, x.generateSpinCases (some n) = .ok cases ∧ cases.Nodup ∧ cases.length = x.size.choose n ∧
      ∀ y, y ∈ cases ↔ y.ty = .spinIntegrated ∧ y.list.map Index.toAlpha = x.list ∧ y.nBeta = n := by
  have hb : ∀ i ∈ x.list, i.isBeta = false := hw.2 ht
  have hnat : ((n : Int)).toNat = n := by simp
  have hspec := fun pos => flipPositions_spec hb pos
  have hinj : ∀ pos ∈ pyCombinations (List.range x.size) n, ∀ pos' ∈ pyCombinations (List.range x.size) n,
      flipPositions x.list pos = flipPositions x.list pos' → pos = pos' := by
    intro pos hpos pos' hpos' heq
    rw [mem_pyCombinations] at hpos hpos'
    have e : ((List.range x.list.length).map fun k => decide (k ∈ pos)) =
        (List.range x.list.length).map fun k => decide (k ∈ pos') := by
      rw [← (hspec pos).2, heq, (hspec pos').2]
    have hmem : ∀ k, k ∈ pos ↔ k ∈ pos' := by
      intro k
      by_cases hk : k < x.list.length
      · rw [List.map_inj_left] at e
        have := e k (List.mem_range.2 hk)
        simpa using this
      · constructor
        · intro h; exact absurd (List.mem_range.1 (hpos.1.subset h)) hk
        · intro h; exact absurd (List.mem_range.1 (hpos'.1.subset h)) hk
    have s1 : pos.Pairwise (· < ·) := (List.pairwise_lt_range).sublist hpos.1
    have s2 : pos'.Pairwise (· < ·) := (List.pairwise_lt_range).sublist hpos'.1
    exact List.Perm.eq_of_pairwise' (r := (· < ·)) s1 s2
      ((List.perm_ext_iff_of_nodup (s1.imp ne_of_lt) (s2.imp ne_of_lt)).2 hmem)
  refine ⟨((pyCombinations (List.range x.size) n).map (flipPositions x.list)).map
    fun l => ⟨.spinIntegrated, l⟩, ?_, ?_, ?_, ?_⟩
  · unfold Indices.generateSpinCases
    rw [if_pos ht]
    simp only
    rw [if_neg (by omega), if_neg (by omega), hnat]
    apply mapM_make_spinIntegrated
    intro l hl
    rw [List.mem_map] at hl
    obtain ⟨pos, hs, rfl⟩ := hl
    exact nodup_of_toAlpha (hspec pos).1 hw.1
  · apply List.Nodup.map
    · intro a b h; simpa using h
    · rw [List.Nodup, List.pairwise_map]
      refine List.Pairwise.imp_of_mem ?_ (nodup_pyCombinations List.nodup_range n)
      intro a b ha hb' hne heq
      exact hne (hinj a ha b hb' heq)
  · rw [List.length_map, List.length_map, length_pyCombinations, List.length_range]
  · intro y
    simp only [List.mem_map]
    constructor
    · rintro ⟨l, ⟨pos, hpos, rfl⟩, rfl⟩
      refine ⟨rfl, (hspec pos).1, ?_⟩
      rw [mem_pyCombinations] at hpos
      have hnd : pos.Nodup := (List.nodup_range).sublist hpos.1
      show (flipPositions x.list pos).countP Index.isBeta = n
      have e : (flipPositions x.list pos).countP Index.isBeta =
          ((flipPositions x.list pos).map Index.isBeta).countP id := by
        rw [List.countP_map]; rfl
      rw [e, (hspec pos).2, List.countP_map, ← hpos.2, List.countP_eq_length_filter]
      have hfl : ((List.range x.list.length).filter (id ∘ fun k => decide (k ∈ pos))).Perm pos := by
        rw [List.perm_ext_iff_of_nodup (List.nodup_range.filter _) hnd]
        intro k
        simp only [List.mem_filter, List.mem_range, Function.comp, id, decide_eq_true_eq]
        constructor
        · exact fun h => h.2
        · intro h; exact ⟨List.mem_range.1 (hpos.1.subset h), h⟩
      exact hfl.length_eq
    · rintro ⟨h1, h2, h3⟩
      have hl : y.list.length = x.list.length := by rw [← h2]; simp
      let pos := (List.range x.size).filter fun k => (y.list[k]?.map Index.isBeta).getD false
      have hflip : flipPositions x.list pos = y.list := by
        apply eq_of_spin_eq
        · rw [(hspec pos).1, h2]
        · rw [(hspec pos).2]
          apply List.ext_getElem?
          intro k
          rw [List.getElem?_map, List.getElem?_map]
          by_cases hk : k < x.list.length
          · have hk' : k < y.list.length := by omega
            rw [List.getElem?_range hk, List.getElem?_eq_getElem hk']
            simp only [Option.map_some, Option.some.injEq, pos, List.mem_filter, List.mem_range]
            simp [Indices.size, hk, List.getElem?_eq_getElem hk']
          · rw [List.getElem?_eq_none (by simp; omega), List.getElem?_eq_none (by omega)]; rfl
      refine ⟨y.list, ⟨pos, ?_, hflip⟩, by cases y; simp_all⟩
      rw [mem_pyCombinations]
      refine ⟨List.filter_sublist, ?_⟩
      have e : y.list.countP Index.isBeta = (y.list.map Index.isBeta).countP id := by
        rw [List.countP_map]; rfl
      have e2 : y.list.map Index.isBeta = (List.range x.list.length).map fun k => decide (k ∈ pos) := by
        rw [← (hspec pos).2, hflip]
      rw [← h3]
      show _ = y.list.countP Index.isBeta
      rw [e, e2, List.countP_map, List.countP_eq_length_filter]
      congr 1
      have : ∀ k ∈ List.range x.size, ((y.list[k]?.map Index.isBeta).getD false) =
          (id ∘ fun k => decide (k ∈ pos)) k := by
        intro k hk
        simp only [Function.comp, id, pos, List.mem_filter, hk, true_and]
        simp
      exact List.filter_congr this

/-- Asking for more beta labels than there are labels, or for a negative number, raises `ValueError`; other index kinds
raise `TypeError`. -/
theorem C13_errors (x : Indices) (n : Int) :
    (x.ty = .spinOrbital → (n > x.size ∨ n < 0) → x.generateSpinCases (some n) = .error .valueError) ∧
    (x.ty ≠ .spinOrbital → ∀ m, x.generateSpinCases m = .error .typeError) := by
  constructor
  · intro ht h
    unfold Indices.generateSpinCases
    rw [if_pos ht]
    simp only
    by_cases h1 : n > x.size
    · rw [if_pos h1]
    · rw [if_neg h1, if_pos (by omega)]
  · intro ht m
    unfold Indices.generateSpinCases
    rw [if_neg ht]

example : (⟨.spinOrbital, [⟨⟨.a, false⟩, 0⟩, ⟨⟨.g, false⟩, 1⟩]⟩ : Indices).generateSpinCases (some 1) =
    .ok [⟨.spinIntegrated, [⟨⟨.a, true⟩, 0⟩, ⟨⟨.g, false⟩, 1⟩]⟩, ⟨.spinIntegrated, [⟨⟨.a, false⟩, 0⟩, ⟨⟨.g, true⟩, 1⟩]⟩] := by
  decide +kernel

end Dsrg
