import Verif.Lemmas.AmbitSym
import Verif.Lemmas.Buckets
import Verif.Spec.Toy
import Mathlib.Tactic.FieldSimp

/-!
Property theorems about the generated code.
-/

namespace Dsrg

/-! ### C45 perm_partition_open partitions the open labels -/

/-- `labels` are listed exactly once in the blocks `p`; two of them share a block exactly when they have the same space and belong to one
factor; inside a block they are in ascending order. -/
def IsOpenPartition (ts : List Tensor) (labels : List Index) (p : List (List Index)) : Prop :=
  p.flatten.Perm labels ∧
  (∀ i ∈ labels, ∀ j ∈ labels, (∃ b ∈ p, i ∈ b ∧ j ∈ b) ↔
    i.space = j.space ∧ ∃ x ∈ ts, i ∈ x.upper.list ++ x.lower.list ∧ j ∈ x.upper.list ++ x.lower.list) ∧
  ∀ b ∈ p, b.Pairwise (· < ·)

theorem C45_partition (ts : List Tensor) (op : SqOp) (c : ℚ) (t : Term) (ht : Term.make ts op c = .ok t) (hop : op.Constructed)
    (hd : t.diag = ∅) :
    IsOpenPartition ts op.upper.list t.permPartitionOpen.1 ∧ IsOpenPartition ts op.lower.list t.permPartitionOpen.2 ∧
      op.upper.list.Nodup ∧ op.lower.list.Nodup := by
  have hperm : t.tensors.Perm ts := by obtain ⟨-, -, -, m4⟩ := Term.make_ok.1 ht; rw [m4]; exact sortTensors_perm ts
  obtain ⟨h1, h2⟩ := Term.permPartitionOpen_spec ht hop hd
  have key : ∀ i j : Index, (∃ s ∈ t.tensors.map fun x => x.pair.indices, i ∈ s ∧ j ∈ s) ↔
      ∃ x ∈ ts, i ∈ x.upper.list ++ x.lower.list ∧ j ∈ x.upper.list ++ x.lower.list := by
    intro i j
    constructor
    · rintro ⟨s, hs, hi, hj⟩
      obtain ⟨x, hx, rfl⟩ := List.mem_map.1 hs
      exact ⟨x, hperm.mem_iff.1 hx, hi, hj⟩
    · rintro ⟨x, hx, hi, hj⟩
      exact ⟨_, List.mem_map.2 ⟨x, hperm.mem_iff.2 hx, rfl⟩, hi, hj⟩
  exact ⟨⟨h1.perm, fun i hi j hj => by rw [h1.together i hi j hj, key], h1.sorted⟩,
    ⟨h2.perm, fun i hi j hj => by rw [h2.together i hi j hj, key], h2.sorted⟩,
    (Indices.make_eq hop.1).2.1, (Indices.make_eq hop.2.1).2.1⟩

/-- The creation labels `a0 a1 c0` of `X^{g0}_{a0 c0} Y^{g1 g2}_{a1 g0} a^{c0 a1 a0}_{g1 g2}` form the blocks `c0 / a0 / a1`. -/
theorem C45_example : ∃ t, Term.make [soTensor .tensor 'X' 0 [lab .g 0] [lab .a 0, lab .c 0],
      soTensor .tensor 'Y' 1 [lab .g 1, lab .g 2] [lab .a 1, lab .g 0]]
      (soOp [lab .c 0, lab .a 1, lab .a 0] [lab .g 1, lab .g 2]) 1 = .ok t ∧ t.diag = ∅ ∧
    (soOp [lab .c 0, lab .a 1, lab .a 0] [lab .g 1, lab .g 2]).Constructed ∧
    t.permPartitionOpen = ([[lab .c 0], [lab .a 0], [lab .a 1]], [[lab .g 1, lab .g 2]]) := by
  refine ⟨_, rfl, ?_, ?_, ?_⟩
  · decide +kernel
  · exact ⟨rfl, rfl, rfl⟩
  · decide +kernel

/-! ### C46 Generated ambit code computes the operator's amplitudes -/

section
variable {O R M : Type} [Fintype O] [DecidableEq O] [Inhabited O] [CommRing R] [Algebra ℚ R] [AddCommGroup M] [Module R M]

/-- `Term.ambit()` for antisymmetric labels.  What the program adds to the target array is antisymmetric, and its operator is the operator
of the term times the number of permutations of the creation and annihilation labels (among labels of the same spin). -/
theorem C46_ambit (orb : Orbitals O) (I : Interp O R M) (hI : I.Antisymmetric) (hH : I.Hermitian) (s : Store O R) (ts : List Tensor)
    (op : SqOp) (c : ℚ) (t : Term) (ht : Term.make ts op c = .ok t) (hop : op.Constructed) (hts : ∀ x ∈ ts, x.Constructed)
    (hanti : op.upper.ty.isAntisym = true) (hd : t.diag = ∅) (hs : ArraysHold s I ts) (hside : OneSided ts op) (name : PyStr)
    (declared : Bool) :
    ∃ prog, t.ambit name false true declared = .ok prog ∧
      I.operator op.lower.list.length op.upper.list.length
          (fun os => runCode orb s prog (targetName name op) os - s (targetName name op) os) =
        algebraMap ℚ R ((spinPermutations op.upper.list * spinPermutations op.lower.list : ℕ) : ℚ) • I.value orb c ts op ∧
      AntisymmetricArray orb op.lower.list.length op.upper.list.length
        (fun os => runCode orb s prog (targetName name op) os - s (targetName name op) os) ∧
      ∀ nm, nm ≠ targetName name op → nm ≠ tempName → runCode orb s prog nm = s nm := by
  obtain ⟨prog, wa, wc, na, nc, h1, hA, hC, h2, h3⟩ := ambit_effect orb s ht hop hts hanti hd hs hH name declared
  refine ⟨prog, h1, ?_, ?_, h3⟩
  · have e : (fun os => runCode orb s prog (targetName name op) os - s (targetName name op) os) = filled orb I ts op wa wc
        (c * ((op.upper.list.length.factorial * op.lower.list.length.factorial : ℕ) : ℚ) / ((nc * na : ℕ) : ℚ)) := by
      funext os; rw [h2 os]; ring
    rw [e, operator_filled orb hI ts op wa wc _ (Indices.make_eq hop.1).2.1 (Indices.make_eq hop.2.1).2.1 hA.perm hC.perm]
    unfold Interp.value
    rw [smul_smul, smul_smul, ← map_mul, ← map_mul]
    congr 2
    have ca : ((wa.length : ℕ) : ℚ) * (op.lower.list.length.factorial : ℚ) = na * spinPermutations op.lower.list := by exact_mod_cast hA.count
    have cc : ((wc.length : ℕ) : ℚ) * (op.upper.list.length.factorial : ℚ) = nc * spinPermutations op.upper.list := by exact_mod_cast hC.count
    have pa : (na : ℚ) ≠ 0 := Nat.cast_ne_zero.2 (by have := hA.pos; omega)
    have pc : (nc : ℚ) ≠ 0 := Nat.cast_ne_zero.2 (by have := hC.pos; omega)
    push_cast
    field_simp
    calc (wa.length : ℚ) * wc.length * c * op.upper.list.length.factorial * op.lower.list.length.factorial
        = c * (wa.length * op.lower.list.length.factorial) * (wc.length * op.upper.list.length.factorial) := by ring
      _ = _ := by rw [ca, cc]; ring
  · intro P Q x y hxy
    refine ⟨fun u h _ => ?_, fun l hl h => ?_⟩
    · simp only [h2, add_sub_cancel_left]
      exact filled_swap_lower orb hI ht hop hts hd (fun x hx => (hside x hx).2) hA hC.perm _ P Q u x y h hxy
    · simp only [h2, add_sub_cancel_left]
      exact filled_swap_upper orb hI ht hop hts hd (fun x hx => (hside x hx).1) hA.perm hC _ P Q l x y hl h hxy

/-- Labels of one spin: the factor is `n_cre! n_ann!`. -/
theorem C46_one_spin (l : List Index) (b : Bool) (h : ∀ i ∈ l, i.isBeta = b) : spinPermutations l = l.length.factorial := by
  unfold spinPermutations
  cases b with
  | false =>
    rw [List.countP_eq_zero.2 fun i hi => by simp [h i hi], List.countP_eq_length.2 fun i hi => by simp [h i hi]]; simp
  | true =>
    rw [List.countP_eq_length.2 fun i hi => by simp [h i hi], List.countP_eq_zero.2 fun i hi => by simp [h i hi]]; simp

/-- `Term.ambit` for labels without antisymmetry, any flags: one statement, whose operator is the term times `n_cre! n_ann!`. -/
theorem C46_plain (orb : Orbitals O) (I : Interp O R M) (hH : I.Hermitian) (s : Store O R) (ts : List Tensor)
    (op : SqOp) (c : ℚ) (t : Term) (ht : Term.make ts op c = .ok t) (hop : op.Constructed) (hts : ∀ x ∈ ts, x.Constructed)
    (hanti : op.upper.ty.isAntisym = false) (hd : t.diag = ∅) (hs : ArraysHold s I ts) (name : PyStr) (ignore initTemp declared : Bool) :
    ∃ prog, t.ambit name ignore initTemp declared = .ok prog ∧
      I.operator op.lower.list.length op.upper.list.length
          (fun os => runCode orb s prog (targetName name op) os - s (targetName name op) os) =
        algebraMap ℚ R ((op.upper.list.length.factorial * op.lower.list.length.factorial : ℕ) : ℚ) • I.value orb c ts op ∧
      ∀ nm, nm ≠ targetName name op → runCode orb s prog nm = s nm := by
  obtain ⟨m1, m2, m3, m4⟩ := Term.make_ok.1 ht
  have hsq : t.sqOp = op := by rw [m4]
  have hco : t.coeff = c := by rw [m4]
  have hperm : t.tensors.Perm ts := by rw [m4]; exact sortTensors_perm ts
  obtain ⟨hU, hL⟩ := Term.permPartitionOpen_spec ht hop hd
  have htyL : op.lower.ty.isAntisym = false := by rw [← (IndicesPair.make_eq hop.2.2).2]; exact hanti
  have hts' : ∀ x ∈ t.tensors, x.Constructed := fun x hx => hts x (hperm.mem_iff.1 hx)
  have hs' : ArraysHold s I t.tensors := fun x hx => hs x (hperm.mem_iff.1 hx)
  have hopen : ∀ i, i ∈ openRef op ↔ i ∈ op.upper.list ∨ i ∈ op.lower.list := by
    intro i; unfold openRef; rw [List.mem_append, or_comm]
  have hcard : ¬ (t.diag.card ≠ 0) := by rw [hd]; simp
  have hnone : ∀ x : Indices, x.ty.isAntisym = false → ∀ p : List (List Index), p.flatten.Perm x.list →
      x.existPermuteFormat p = .ok false ∧ x.nMultisetPermutation p = .ok 1 := by
    intro x hx p hp
    have hv : x.isValidPartition p = .ok () := by
      unfold Indices.isValidPartition
      rw [if_pos]
      rw [List.all_eq_true]
      intro b hb
      rw [List.all_eq_true]
      intro i hi
      exact decide_eq_true (hp.mem_iff.1 (List.mem_flatten.2 ⟨b, hb, hi⟩))
    have he : x.existPermuteFormat p = .ok false := by
      unfold Indices.existPermuteFormat
      rw [hv, hx]; rfl
    refine ⟨he, ?_⟩
    unfold Indices.nMultisetPermutation
    rw [hv, he]; rfl
  obtain ⟨e1, n1⟩ := hnone op.upper hanti _ hU.perm
  obtain ⟨e2, n2⟩ := hnone op.lower htyL _ hL.perm
  unfold Term.ambit
  rw [if_neg hcard]
  simp only [hsq, hco, IndicesPair.nMultisetPermutation, IndicesPair.existPermuteFormat, bind, Except.bind, pure, Except.pure,
    e1, e2, n1, n2, Bool.not_false, Bool.false_eq_true, if_true, if_false, List.nil_append]
  refine ⟨_, rfl, ?_, ?_⟩
  · have e : ∀ q : ℚ, (fun os => runCode orb s [AmbitStmt.update ⟨targetName name op, openRef op⟩ true q (t.tensors.map Tensor.arrayRef)]
        (targetName name op) os - s (targetName name op) os) = fun os => algebraMap ℚ R q * scatter orb I ts op (openRef op) os := by
      intro q
      funext os
      rw [runCode_cons, exec_term orb s (op := op) hs' hH hts' _ _ hopen]
      show Function.update s _ _ _ os - _ = _
      rw [Function.update_self]
      have : scatter orb I t.tensors op (openRef op) os = scatter orb I ts op (openRef op) os := by
        unfold scatter
        rw [labelsOf_perm hperm]
        simp only [I.pval_perm _ hperm]
      rw [this]; simp
    rw [e, operator_smul]
    unfold scatter openRef
    rw [operator_scatter I _ (fun τ => extendTo τ) _ _ rfl rfl]
    unfold Interp.value
    rw [smul_smul, ← map_mul]
    congr 2
    show c * ((op.upper.list.length.factorial * op.lower.list.length.factorial : ℕ) : ℚ) / ((1 * 1 : ℕ) : ℚ) = _
    push_cast; ring
  · intro nm h1
    rw [runCode_cons, exec_term orb s (op := op) hs' hH hts' _ _ hopen]
    exact Function.update_of_ne h1 _ _

end

/-- The parity of a list of two orbitals. -/
def orbSign : List (Fin 2) → ℚ
  | [0, 1] => 1
  | [1, 0] => -1
  | _ => 0

/-- One-body factors are deltas; operator strings are products of parities. -/
def signWorld : Interp (Fin 2) ℚ ℚ where
  tensor _ _ u l := match u, l with
    | [a], [b] => if a = b then 1 else 0
    | _, _ => 0
  op u l := orbSign u * orbSign l

theorem orbSign_swap (pre : List (Fin 2)) (a b : Fin 2) (post : List (Fin 2)) :
    orbSign (pre ++ b :: a :: post) = - orbSign (pre ++ a :: b :: post) := by
  match pre, post with
  | [], [] => revert a b; decide
  | [], _ :: _ => simp [orbSign]
  | [_], _ => simp [orbSign]
  | _ :: _ :: _, _ => simp [orbSign]

/-- `X^{a0}_{g0} Y^{a1}_{g1} a^{g0 g1}_{a0 a1}` meets the hypotheses, and its value is not zero. -/
theorem C46_example : ∃ t, Term.make [soTensor .tensor 'X' 0 [lab .a 0] [lab .g 0], soTensor .tensor 'Y' 1 [lab .a 1] [lab .g 1]]
      (soOp [lab .g 0, lab .g 1] [lab .a 0, lab .a 1]) 1 = .ok t ∧ t.diag = ∅ ∧
    OneSided [soTensor .tensor 'X' 0 [lab .a 0] [lab .g 0], soTensor .tensor 'Y' 1 [lab .a 1] [lab .g 1]]
      (soOp [lab .g 0, lab .g 1] [lab .a 0, lab .a 1]) ∧
    signWorld.Antisymmetric ∧ signWorld.Hermitian ∧
    ArraysHold (fun _ os => match os with | [a, b] => if a = b then 1 else 0 | _ => 0) signWorld
      [soTensor .tensor 'X' 0 [lab .a 0] [lab .g 0], soTensor .tensor 'Y' 1 [lab .a 1] [lab .g 1]] ∧
    signWorld.value twoActive 1 [soTensor .tensor 'X' 0 [lab .a 0] [lab .g 0], soTensor .tensor 'Y' 1 [lab .a 1] [lab .g 1]]
      (soOp [lab .g 0, lab .g 1] [lab .a 0, lab .a 1]) = 2 := by
  refine ⟨_, rfl, ?_, ?_, ⟨?_, ?_, ?_, ?_⟩, ?_, ?_, ?_⟩
  · decide +kernel
  · unfold OneSided; decide +kernel
  · intro cls name pre a b post l
    match pre, post with
    | [], [] => simp [signWorld]
    | [], _ :: _ => simp [signWorld]
    | [_], _ => simp [signWorld]
    | _ :: _ :: _, _ => simp [signWorld]
  · intro cls name u pre a b post
    match pre, post with
    | [], [] => simp [signWorld]
    | [], _ :: _ => simp [signWorld]
    | [_], _ => simp [signWorld]
    | _ :: _ :: _, _ => simp [signWorld]
  · intro pre a b post l
    show orbSign _ * _ = - (orbSign _ * _)
    rw [orbSign_swap]; ring
  · intro u pre a b post
    show _ * orbSign _ = - (_ * orbSign _)
    rw [orbSign_swap]; ring
  · intro cls name u l
    match u, l with
    | [a], [b] => simp [signWorld, eq_comm]
    | [], _ => cases l <;> simp [signWorld]
    | _ :: _ :: _, _ => simp [signWorld]
    | [_], [] => simp [signWorld]
    | [_], _ :: _ :: _ => simp [signWorld]
  · intro x hx u l hu hl
    have hx' : x.upper.list.length = 1 ∧ x.lower.list.length = 1 := by
      simp only [List.mem_cons, List.not_mem_nil, or_false] at hx
      rcases hx with rfl | rfl <;> decide
    rw [hx'.1] at hu
    rw [hx'.2] at hl
    obtain ⟨a, rfl⟩ := List.length_eq_one_iff.1 hu
    obtain ⟨b, rfl⟩ := List.length_eq_one_iff.1 hl
    rfl
  · decide +kernel

/-- Without an intermediate array (`init_temp` and `declared_temp` both false) the permutations are dropped: for `X_{a0} Y_{a1} a^{a0 a1}`
the array is not antisymmetric. -/
theorem C46_no_temp : ∃ t prog, Term.make [soTensor .tensor 'X' 0 [] [lab .a 0], soTensor .tensor 'Y' 1 [] [lab .a 1]]
      (soOp [lab .a 0, lab .a 1] []) 1 = .ok t ∧ t.diag = ∅ ∧
    t.ambit ['C'] false false false = .ok prog ∧
    ¬ AntisymmetricArray twoActive 0 2 fun os => runCode twoActive
      (fun nm os => if nm = ['X', '_', '0', '_', '1'] ∧ os = [0] ∨ nm = ['Y', '_', '0', '_', '1'] ∧ os = [1] then (1 : ℚ) else 0) prog
        ['C', '_', '0', '_', '2'] os := by
  refine ⟨_, _, rfl, ?_, rfl, ?_⟩
  · decide +kernel
  · intro h
    have := (h [] [] 0 1 rfl).2 [] rfl rfl
    revert this
    decide +kernel

/-! ### C58 categorize_contractions is a partition of the terms -/

/-- The buckets have distinct keys; each holds, in ascending order, exactly the terms with its key, and there is at least one; every term
has a bucket. -/
theorem C58_partition (terms : List Term) (out : Buckets) (h : categorizeContractions terms = .ok out) :
    (out.map Prod.fst).Nodup ∧ (∀ e ∈ out, (e.2.map Prod.fst).Nodup) ∧
    (∀ e ∈ out, e.2 ≠ [] ∧ ∀ f ∈ e.2, f.2 ≠ [] ∧ f.2.Pairwise (fun x y => y.pyLt x = .ok false) ∧
      f.2.Perm (terms.filter fun t => decide (t.bucketKey = .ok (e.1, f.1)))) ∧
    ∀ t ∈ terms, ∃ e ∈ out, ∃ f ∈ e.2, t.bucketKey = .ok (e.1, f.1) ∧ t ∈ f.2 := by
  obtain ⟨ev, hev, inv⟩ := categorize_spec h
  obtain ⟨v1, v2⟩ := bucketEvents_ok hev
  have hget : ∀ e ∈ out, dictGet out e.1 = e.2 := fun e he => dictGet_of_mem inv.nodup he
  have hbucket : ∀ k, k ∈ (dictCollect ev).map Prod.fst → k.2 ∈ (dictGet out k.1).map Prod.fst ∧
      (dictGet (dictGet out k.1) k.2 ≠ []) ∧ (dictGet (dictGet out k.1) k.2).Pairwise (fun x y => y.pyLt x = .ok false) ∧
      (dictGet (dictGet out k.1) k.2).Perm (terms.filter fun t => decide (t.bucketKey = .ok k)) := by
    intro k hk
    have hm := mem_of_dictGet hk
    obtain ⟨d1, d2⟩ := inv.done _ hm
    obtain ⟨s1, s2⟩ := sortTerms_ok d2
    refine ⟨d1, ?_, s2, ?_⟩
    · intro h0
      simp only at s1
      rw [h0] at s1
      exact dictCollect_ne_nil ev _ hm (List.perm_nil.1 s1.symm)
    · simp only at s1
      rw [dictGet_dictCollect, events_filter v2 v1] at s1
      exact s1
  refine ⟨inv.nodup, fun e he => by rw [← hget e he]; exact inv.inner e.1, ?_, ?_⟩
  · intro e he
    refine ⟨?_, ?_⟩
    · obtain ⟨k2, hk2⟩ := (inv.keys e.1).1 (List.mem_map_of_mem he)
      have := (hbucket _ hk2).1
      rw [hget e he] at this
      intro h0; rw [h0] at this; simp at this
    · intro f hf
      have hk : (e.1, f.1) ∈ (dictCollect ev).map Prod.fst :=
        inv.sub e.1 f.1 (by rw [hget e he]; exact List.mem_map_of_mem hf)
      have hb := (hbucket _ hk).2
      simp only at hb
      rw [hget e he, dictGet_of_mem (hget e he ▸ inv.inner e.1) hf] at hb
      exact hb
  · intro t ht
    obtain ⟨x, hx, rfl⟩ := List.mem_map.1 (v1 ▸ ht)
    have hk : x.1 ∈ (dictCollect ev).map Prod.fst := (mem_keys_dictCollect ev x.1).2 (List.mem_map_of_mem hx)
    obtain ⟨b1, -, -, b4⟩ := hbucket x.1 hk
    have hk1 : x.1.1 ∈ out.map Prod.fst := (inv.keys _).2 ⟨x.1.2, hk⟩
    refine ⟨_, mem_of_dictGet hk1, _, mem_of_dictGet b1, v2 x hx, ?_⟩
    rw [b4.mem_iff, List.mem_filter]
    exact ⟨ht, decide_eq_true (v2 x hx)⟩

/-- The key of a term: the spaces of the annihilation and creation labels, and the partitions on which permutations act. -/
theorem C58_key (ts : List Tensor) (op : SqOp) (c : ℚ) (t : Term) (ht : Term.make ts op c = .ok t) (hop : op.Constructed)
    (hanti : op.upper.ty.isAntisym = true) (hd : t.diag = ∅) :
    ∃ nc na, op.upper.nMultisetPermutation t.permPartitionOpen.1 = .ok nc ∧ op.lower.nMultisetPermutation t.permPartitionOpen.2 = .ok na ∧
      t.bucketKey = .ok ((op.lower.list ++ op.upper.list).map Index.space,
        (if nc = 1 then [] else [t.permPartitionOpen.1]) ++ (if na = 1 then [] else [t.permPartitionOpen.2])) := by
  obtain ⟨-, -, -, m4⟩ := Term.make_ok.1 ht
  have hsq : t.sqOp = op := by rw [m4]
  obtain ⟨hU, hL⟩ := Term.permPartitionOpen_spec ht hop hd
  have htyL : op.lower.ty.isAntisym = true := by rw [← (IndicesPair.make_eq hop.2.2).2]; exact hanti
  obtain ⟨nc, n1, l1⟩ := latexSide op.upper hanti _ hU.perm
  obtain ⟨na, n2, l2⟩ := latexSide op.lower htyL _ hL.perm
  refine ⟨nc, na, n1, n2, ?_⟩
  unfold Term.bucketKey IndicesPair.latexPermuteFormat
  simp only [hsq, l1, l2, bind, Except.bind, pure, Except.pure]
  by_cases he : op.isEmpty = true
  · rw [if_pos he]
    have h0 : op.size = 0 := by simpa [IndicesPair.isEmpty] using he
    have h0 : op.upper.size + op.lower.size = 0 := h0
    have hz : ∀ (x : Indices) p n, x.size = 0 → x.nMultisetPermutation p = .ok n → n = 1 := by
      intro x p n hx hn
      unfold Indices.nMultisetPermutation Indices.existPermuteFormat at hn
      cases hv : x.isValidPartition p with
      | error e => rw [hv] at hn; cases hn
      | ok v =>
        rw [hv] at hn
        simp only [bind, Except.bind, hx, if_true, pure, Except.pure] at hn
        split_ifs at hn <;> · injection hn with hn; exact hn.symm
    rw [hz _ _ _ (by omega) n1, hz _ _ _ (by omega) n2]; rfl
  · rw [if_neg he]; rfl

/-- Terms of one index class without diagonal labels are categorized without an exception. -/
theorem C58_total (ty : IType) (hty : ty.isAntisym = true) (terms : List Term)
    (h : ∀ t ∈ terms, ∃ ts op c, Term.make ts op c = .ok t ∧ op.Constructed ∧ op.upper.ty = ty ∧ t.diag = ∅) :
    ∃ out, categorizeContractions terms = .ok out := by
  obtain ⟨ev, hev⟩ := bucketEvents_total (terms := terms) (by
    intro t ht
    obtain ⟨ts, op, c, h1, h2, h3, h4⟩ := h t ht
    obtain ⟨nc, na, -, -, hk⟩ := C58_key ts op c t h1 h2 (h3 ▸ hty) h4
    exact ⟨_, hk⟩)
  unfold categorizeContractions
  rw [hev]
  refine store_total ?_ _
  intro e he
  obtain ⟨v1, -⟩ := bucketEvents_ok hev
  refine sortTerms_total ty fun t ht => ?_
  have hmem : t ∈ terms := by
    have := dictGet_of_mem (nodup_keys_dictCollect ev) he
    rw [dictGet_dictCollect] at this
    rw [← this] at ht
    obtain ⟨x, hx, rfl⟩ := List.mem_map.1 ht
    rw [← v1]
    exact List.mem_map_of_mem (List.mem_filter.1 hx).1
  obtain ⟨ts, op, c, h1, -, h3, -⟩ := h t hmem
  obtain ⟨-, -, -, m4⟩ := Term.make_ok.1 h1
  rw [m4]; exact h3

/-- Three terms, two of them with a permutation, end up in two buckets. -/
theorem C58_example : ∃ t1 t2 t3 out,
    Term.make [soTensor .tensor 'X' 0 [] [lab .a 0], soTensor .tensor 'Y' 1 [] [lab .a 1]] (soOp [lab .a 0, lab .a 1] []) 1 = .ok t1 ∧
    Term.make [soTensor .tensor 'Z' 0 [] [lab .a 0, lab .a 1]] (soOp [lab .a 0, lab .a 1] []) 1 = .ok t2 ∧
    Term.make [soTensor .tensor 'U' 0 [] [lab .a 0], soTensor .tensor 'Y' 1 [] [lab .a 1]] (soOp [lab .a 0, lab .a 1] []) 1 = .ok t3 ∧
    categorizeContractions [t1, t2, t3] = .ok out ∧ out.map (fun e => e.2.map fun f => (f.1, f.2.length)) =
      [[([], 1), ([[[lab .a 0], [lab .a 1]]], 2)]] := by
  refine ⟨_, _, _, _, rfl, rfl, rfl, rfl, ?_⟩
  decide +kernel

end Dsrg
