import Verif.Lemmas.BucketEffect

/-!
The code of one bucket computes the sum of the amplitudes of its terms.
-/

namespace Dsrg

/-- The number of arrangements written in a key. -/
def permsCount (perms : List (List (List Index))) : Nat := (perms.map fun p => (multisetPerms (blockWord p)).length).prod

theorem Shape.keyPerms {t : Term} (h : Shape t) {sp : List Space} {perms : List (List (List Index))} (hk : t.bucketKey = .ok (sp, perms)) :
    sp = (openRef t.sqOp).map Index.space ∧
      perms = (if t.nRows.1 = 1 then [] else [t.permPartitionOpen.1]) ++ (if t.nRows.2 = 1 then [] else [t.permPartitionOpen.2]) := by
  rw [h.key] at hk
  injection hk with hk
  rw [Prod.ext_iff] at hk
  exact ⟨hk.1.symm, hk.2.symm⟩

theorem Shape.permsCount_eq {t : Term} (h : Shape t) {sp : List Space} {perms : List (List (List Index))} (hk : t.bucketKey = .ok (sp, perms)) :
    permsCount perms = t.nRows.1 * t.nRows.2 := by
  rw [(h.keyPerms hk).2]
  unfold permsCount
  by_cases h1 : t.nRows.1 = 1 <;> by_cases h2 : t.nRows.2 = 1 <;> simp [h1, h2] <;> simp [Term.nRows]

theorem Shape.perms_nil {t : Term} (h : Shape t) {sp : List Space} {perms : List (List (List Index))} (hk : t.bucketKey = .ok (sp, perms)) :
    perms = [] ↔ t.nRows = (1, 1) := by
  rw [(h.keyPerms hk).2, Prod.ext_iff]
  by_cases h1 : t.nRows.1 = 1 <;> by_cases h2 : t.nRows.2 = 1 <;> simp [h1, h2]

theorem Shape.lengths {t : Term} (h : Shape t) {sp : List Space} {perms : List (List (List Index))} (hk : t.bucketKey = .ok (sp, perms)) :
    t.sqOp.lower.list.length = sp.length / 2 ∧ t.sqOp.upper.list.length = sp.length / 2 := by
  have e := congrArg List.length (h.keyPerms hk).1
  have hs := h.size
  unfold openRef at e
  rw [List.length_map, List.length_append] at e
  omega

theorem Shape.target {t : Term} (h : Shape t) {sp : List Space} {perms : List (List (List Index))} (hk : t.bucketKey = .ok (sp, perms)) (name : PyStr) :
    targetName name t.sqOp = name ++ natStr (sp.length / 2) := by
  obtain ⟨e1, e2⟩ := h.lengths hk
  unfold targetName
  rw [if_pos (show t.sqOp.lower.size = t.sqOp.upper.size from e1.trans e2.symm)]
  exact congrArg (fun n => name ++ natStr n) e1

/-- The spaces of the lower and of the upper labels. -/
theorem Shape.spaces {t : Term} (h : Shape t) {sp : List Space} {perms : List (List (List Index))} (hk : t.bucketKey = .ok (sp, perms)) :
    t.sqOp.lower.list.map Index.space = sp.take (sp.length / 2) ∧ t.sqOp.upper.list.map Index.space = sp.drop (sp.length / 2) := by
  obtain ⟨e1, e2⟩ := h.lengths hk
  have e := (h.keyPerms hk).1
  unfold openRef at e
  rw [List.map_append] at e
  constructor
  · conv_rhs => rw [← e1, e]
    rw [List.take_left' (by simp)]
  · conv_rhs => rw [← e1, e]
    rw [List.drop_left' (by simp)]

theorem spinPermutations_spaces {l l' : List Index} (h : l.map Index.space = l'.map Index.space) : spinPermutations l = spinPermutations l' := by
  have key : ∀ l : List Index, spinPermutations l =
      ((l.map Index.space).countP Space.beta).factorial * ((l.map Index.space).countP fun s => !s.beta).factorial := by
    intro l
    unfold spinPermutations
    rw [List.countP_map, List.countP_map]
    rfl
  rw [key, key, h]

/-- The number of permutations a term's amplitudes are multiplied with. -/
def Term.weight (t : Term) : ℕ := spinPermutations t.sqOp.upper.list * spinPermutations t.sqOp.lower.list

theorem Shape.rows_count {t : Term} (h : Shape t) (hne : t.nRows ≠ (1, 1)) :
    t.rows.length * (t.sqOp.upper.list.length.factorial * t.sqOp.lower.list.length.factorial) = (t.nRows.1 * t.nRows.2) * t.weight ∧
      0 < t.nRows.1 * t.nRows.2 := by
  obtain ⟨wa, wc, hrows, hA, hC⟩ := h.rows hne
  refine ⟨?_, Nat.mul_pos hC.pos hA.pos⟩
  have : t.rows.length = wa.length * wc.length := by
    rw [hrows, List.length_flatMap]
    simp only [List.length_map, List.map_map, Function.comp_def, List.map_const', List.sum_replicate, smul_eq_mul]
  rw [this]
  unfold Term.weight
  have ca := hA.count
  have cc := hC.count
  calc wa.length * wc.length * (t.sqOp.upper.list.length.factorial * t.sqOp.lower.list.length.factorial)
      = (wa.length * t.sqOp.lower.list.length.factorial) * (wc.length * t.sqOp.upper.list.length.factorial) := by ring
    _ = _ := by rw [ca, cc]; ring

theorem Shape.direct_printed {t : Term} (h : Shape t) (he : t.nRows = (1, 1)) : t.printed = t.coeff * (t.weight : ℚ) := by
  obtain ⟨hA, hC⟩ := h.one he
  have ca := hA.count
  have cc := hC.count
  simp only [List.length_singleton, one_mul] at ca cc
  unfold Term.printed Term.weight
  rw [he, ca, cc]
  simp

/-- Every term of a bucket is printed with the same factor. -/
theorem bucket_printed {t u : Term} (ht : Shape t) (hu : Shape u) {sp : List Space} {perms : List (List (List Index))}
    (kt : t.bucketKey = .ok (sp, perms)) (ku : u.bucketKey = .ok (sp, perms)) (hne : t.nRows ≠ (1, 1)) :
    (t.rows.length : ℚ) * u.printed = u.coeff * (u.weight : ℚ) := by
  obtain ⟨h1, h2⟩ := ht.rows_count hne
  have hn : t.nRows.1 * t.nRows.2 = u.nRows.1 * u.nRows.2 := by rw [← ht.permsCount_eq kt, ← hu.permsCount_eq ku]
  have hw : t.weight = u.weight := by
    unfold Term.weight
    rw [spinPermutations_spaces ((ht.spaces kt).2.trans (hu.spaces ku).2.symm), spinPermutations_spaces ((ht.spaces kt).1.trans (hu.spaces ku).1.symm)]
  rw [(ht.lengths kt).1, (ht.lengths kt).2, hw] at h1
  unfold Term.printed
  rw [(hu.lengths ku).1, (hu.lengths ku).2, ← hn]
  have hq : ((t.nRows.1 * t.nRows.2 : ℕ) : ℚ) ≠ 0 := Nat.cast_ne_zero.2 (by omega)
  have h1' : (t.rows.length : ℚ) * (((sp.length / 2).factorial * (sp.length / 2).factorial : ℕ) : ℚ) = ((t.nRows.1 * t.nRows.2 : ℕ) : ℚ) * (u.weight : ℚ) := by
    exact_mod_cast h1
  rw [← mul_div_assoc, div_eq_iff hq]
  calc (t.rows.length : ℚ) * (u.coeff * (((sp.length / 2).factorial * (sp.length / 2).factorial : ℕ) : ℚ))
      = u.coeff * ((t.rows.length : ℚ) * (((sp.length / 2).factorial * (sp.length / 2).factorial : ℕ) : ℚ)) := by ring
    _ = _ := by rw [h1']; ring

section
variable {O R M : Type} [Fintype O] [DecidableEq O] [Inhabited O] [CommRing R] [Algebra ℚ R] [AddCommGroup M] [Module R M]

omit [Fintype O] [DecidableEq O] [Inhabited O] [Algebra ℚ R] in
theorem AntisymmetricArray.add {orb : Orbitals O} {n m : Nat} {A B : List O → R} (hA : AntisymmetricArray orb n m A)
    (hB : AntisymmetricArray orb n m B) : AntisymmetricArray orb n m fun os => A os + B os := by
  intro P Q x y hxy
  refine ⟨fun u h1 h2 => ?_, fun l h1 h2 => ?_⟩
  · simp only [(hA P Q x y hxy).1 u h1 h2, (hB P Q x y hxy).1 u h1 h2]; ring
  · simp only [(hA P Q x y hxy).2 l h1 h2, (hB P Q x y hxy).2 l h1 h2]; ring

omit [Fintype O] [DecidableEq O] [Inhabited O] [Algebra ℚ R] in
theorem AntisymmetricArray.zero (orb : Orbitals O) (n m : Nat) : AntisymmetricArray orb n m fun _ => (0 : R) :=
  fun _ _ _ _ _ => ⟨fun _ _ _ => by simp, fun _ _ _ => by simp⟩

omit [Fintype O] [DecidableEq O] [Inhabited O] [Algebra ℚ R] in
theorem AntisymmetricArray.sum {orb : Orbitals O} {n m : Nat} {T : Type} (l : List T) (A : T → List O → R)
    (h : ∀ t ∈ l, AntisymmetricArray orb n m (A t)) : AntisymmetricArray orb n m fun os => (l.map fun t => A t os).sum := by
  induction l with
  | nil => exact AntisymmetricArray.zero orb n m
  | cons t l ih =>
    simp only [List.map_cons, List.sum_cons]
    exact (h t (by simp)).add (ih fun x hx => h x (List.mem_cons_of_mem _ hx))

theorem value_smul (I : Interp O R M) (orb : Orbitals O) (q c : ℚ) (ts : List Tensor) (op : SqOp) :
    algebraMap ℚ R q • I.value orb c ts op = I.value orb (q * c) ts op := by
  unfold Interp.value; rw [smul_smul, ← map_mul]

/-- The amplitudes of a term, times its number of permutations. -/
def Term.amplitudes (orb : Orbitals O) (I : Interp O R M) (t : Term) : M :=
  algebraMap ℚ R (t.weight : ℚ) • I.value orb t.coeff t.tensors t.sqOp

/-- The factors of a term hold labels of one side of the operator on one side only. -/
def Term.oneSided (t : Term) : Prop := OneSided t.tensors t.sqOp

theorem redistribute_sum (orb : Orbitals O) (t : Term) {T : Type} (l : List T) (A : T → List O → R) (os : List O) :
    redistribute orb t (fun os => (l.map fun x => A x os).sum) os = (l.map fun x => redistribute orb t (A x) os).sum := by
  unfold redistribute
  rw [list_sum_comm]
  refine congrArg List.sum (List.map_congr_left fun r _ => ?_)
  rw [← list_mul_sum]
  congr 1
  induction l with
  | nil => simp
  | cons x l ih =>
    simp only [List.map_cons, List.sum_cons]
    rw [← ih, ← Finset.sum_add_distrib]
    refine Finset.sum_congr rfl fun σ _ => ?_
    split <;> simp

/-- What one term adds to the target is antisymmetric. -/
theorem single_antisymmetric (orb : Orbitals O) {I : Interp O R M} (hI : I.Antisymmetric) (hH : I.Hermitian) {t : Term} (hp : Printable t)
    (hone : t.oneSided) (s : Store O R) (ha : ArraysHold s I t.tensors) :
    AntisymmetricArray orb t.sqOp.lower.list.length t.sqOp.upper.list.length
      (if t.nRows = (1, 1) then contribution orb I t else redistribute orb t (contribution orb I t)) := by
  have hs := hp.shape
  obtain ⟨ts, op, c, ht, hop, hts, hanti, hd, hbal⟩ := hp
  obtain ⟨-, -, -, m4⟩ := Term.make_ok.1 ht
  have hsq : t.sqOp = op := by rw [m4]
  have hperm : t.tensors.Perm ts := by rw [m4]; exact sortTensors_perm ts
  obtain ⟨prog, h1, -, h3, -⟩ := C46_ambit orb I hI hH s ts op c t ht hop hts hanti hd
    (fun x hx => ha x (hperm.mem_iff.2 hx)) (fun x hx => by have := hone x (hperm.mem_iff.2 hx); rwa [hsq] at this) ['C'] true
  rw [← hsq] at h3
  by_cases he : t.nRows = (1, 1)
  · rw [if_pos he]
    rw [hs.code ['C'] false true, if_pos he] at h1
    injection h1 with h1
    subst h1
    have e : (fun os => runCode orb s [.update ⟨targetName ['C'] t.sqOp, openRef t.sqOp⟩ true t.printed (t.tensors.map Tensor.arrayRef)]
        (targetName ['C'] t.sqOp) os - s (targetName ['C'] t.sqOp) os) = contribution orb I t := by
      funext os
      rw [runCode_cons, run_term_update orb s hH hs ha]
      show Function.update s _ _ _ os - _ = _
      rw [Function.update_self]; ring
    rwa [e] at h3
  · rw [if_neg he]
    obtain ⟨prog', hp', hrun⟩ := ambitTerms_permuted orb hH [t] (by simp) (by simpa using hs) (by simpa using he) true
    have : t.ambit ['C'] false true true = .ok prog' := hp'
    rw [h1] at this
    injection this with this
    subst this
    obtain ⟨r1, -⟩ := hrun s (by simpa using ha)
    simp only [List.getLast_singleton, if_true, List.map_cons, List.map_nil, List.sum_cons, List.sum_nil, add_zero, zero_add] at r1
    have e : (fun os => runCode orb s prog (targetName ['C'] t.sqOp) os - s (targetName ['C'] t.sqOp) os) =
        redistribute orb t (contribution orb I t) := by
      funext os
      rw [r1 os]; ring
    rwa [e] at h3

/-- Terms of a bucket with the same operator have the same partitions. -/
theorem bucket_partitions {t u : Term} (ht : Shape t) (hu : Shape u) {sp : List Space} {perms : List (List (List Index))}
    (kt : t.bucketKey = .ok (sp, perms)) (ku : u.bucketKey = .ok (sp, perms)) (hop : t.sqOp = u.sqOp) :
    t.permPartitionOpen = u.permPartitionOpen := by
  have hb : ∀ (ops : List Index) (sets sets' : List (List Index)) (p p' : List (List Index)), SplitsOpen sets ops p → SplitsOpen sets' ops p' →
      p.length ≤ 1 → p'.length ≤ 1 → ops ≠ [] → p = p' := by
    intro ops sets sets' p p' h h' l l' hne
    have one : ∀ (sets p : List (List Index)), SplitsOpen sets ops p → p.length ≤ 1 → ∃ b, p = [b] ∧ b.Perm ops ∧ b.Pairwise (· < ·) := by
      intro sets p h l
      match p, h, l with
      | [], h, _ => exact absurd (List.nil_perm.1 h.perm) hne
      | [b], h, _ => exact ⟨b, rfl, by simpa using h.perm, h.sorted b (by simp)⟩
      | _ :: _ :: _, _, l => simp at l
    obtain ⟨b, rfl, b1, b2⟩ := one sets p h l
    obtain ⟨b', rfl, b1', b2'⟩ := one sets' p' h' l'
    rw [(b1.trans b1'.symm).eq_of_pairwise (fun x y _ _ hx hy => absurd (lt_trans hx hy) (lt_irrefl _)) b2 b2']
  have hz : ∀ v : Term, v.sqOp.upper.list = [] → v.permPartitionOpen.1 = [[]] := by
    intro v hv; unfold Term.permPartitionOpen; simp only [hv, permPartAtomic_nil]
  have hz' : ∀ v : Term, v.sqOp.lower.list = [] → v.permPartitionOpen.2 = [[]] := by
    intro v hv; unfold Term.permPartitionOpen; simp only [hv, permPartAtomic_nil]
  have hn : ∀ v : Term, v.nRows.1 ≠ 1 → v.sqOp.upper.list ≠ [] := by
    intro v hv he
    apply hv
    unfold Term.nRows
    rw [hz v he]
    show (multisetPerms (blockWord [[]])).length = 1
    decide
  have hn' : ∀ v : Term, v.nRows.2 ≠ 1 → v.sqOp.lower.list ≠ [] := by
    intro v hv he
    apply hv
    unfold Term.nRows
    rw [hz' v he]
    show (multisetPerms (blockWord [[]])).length = 1
    decide
  have hU : t.nRows.1 = 1 → u.nRows.1 = 1 → t.permPartitionOpen.1 = u.permPartitionOpen.1 := by
    intro h1 h2
    by_cases h0 : t.sqOp.upper.list = []
    · rw [hz t h0, hz u (hop ▸ h0)]
    · exact hb _ _ _ _ _ ht.upper (hop ▸ hu.upper) (ht.oneUpper h1) (hu.oneUpper h2) h0
  have hL : t.nRows.2 = 1 → u.nRows.2 = 1 → t.permPartitionOpen.2 = u.permPartitionOpen.2 := by
    intro h1 h2
    by_cases h0 : t.sqOp.lower.list = []
    · rw [hz' t h0, hz' u (hop ▸ h0)]
    · exact hb _ _ _ _ _ ht.lower (hop ▸ hu.lower) (ht.oneLower h1) (hu.oneLower h2) h0
  have hcross : ∀ v w : Term, Shape v → Shape w → v.sqOp = w.sqOp → v.nRows.1 ≠ 1 → v.permPartitionOpen.1 ≠ w.permPartitionOpen.2 := by
    intro v w hv hw hvw h1 he
    have hmem : ∀ i, i ∈ v.sqOp.upper.list ↔ i ∈ v.sqOp.lower.list := by
      intro i
      rw [← hv.upper.perm.mem_iff, he, hw.lower.perm.mem_iff, hvw]
    obtain ⟨i, hi⟩ := List.exists_mem_of_ne_nil _ (hn v h1)
    exact (List.nodup_append.1 hv.nodup).2.2 i ((hmem i).1 hi) i hi rfl
  have hpp := (ht.keyPerms kt).2.symm.trans (hu.keyPerms ku).2
  have c1 := hcross t u ht hu hop
  have c2 := hcross u t hu ht hop.symm
  by_cases t1 : t.nRows.1 = 1 <;> by_cases t2 : t.nRows.2 = 1 <;> by_cases u1 : u.nRows.1 = 1 <;> by_cases u2 : u.nRows.2 = 1 <;>
    simp only [t1, t2, u1, u2, if_true, if_false, List.nil_append, List.append_nil, List.cons_append, List.cons.injEq, and_true, reduceCtorEq,
      not_true_eq_false, not_false_eq_true, forall_true_left, ne_eq, and_false, List.nil_eq] at hpp c1 c2
  · exact Prod.ext (hU t1 u1) (hL t2 u2)
  · exact Prod.ext (hU t1 u1) hpp
  · exact absurd hpp.symm c2
  · exact absurd hpp c1
  · exact Prod.ext hpp (hL t2 u2)
  · exact Prod.ext hpp.1 hpp.2

/-- The effect of the code of one bucket. -/
theorem bucket_effect (orb : Orbitals O) {I : Interp O R M} (hI : I.Antisymmetric) (hH : I.Hermitian) {sp : List Space}
    {perms : List (List (List Index))} {terms : List Term} (hne : terms ≠ []) (hp : ∀ t ∈ terms, Printable t)
    (hk : ∀ t ∈ terms, t.bucketKey = .ok (sp, perms))
    (hx : ∀ t ∈ terms, ∀ x ∈ t.tensors, x.arrayName ≠ 'C' :: natStr (sp.length / 2)) (init : Bool) :
    ∃ prog, ambitTerms init terms = .ok prog ∧ ∀ s : Store O R, (∀ t ∈ terms, ArraysHold s I t.tensors) →
      (perms = [] ∨ init = true ∨ s tempName = 0) →
      I.operator (sp.length / 2) (sp.length / 2)
          (fun os => runCode orb s prog ('C' :: natStr (sp.length / 2)) os - s ('C' :: natStr (sp.length / 2)) os) =
        (terms.map fun t => t.amplitudes orb I).sum ∧
      ((∀ t ∈ terms, ∀ u ∈ terms, t.sqOp = u.sqOp) → (∀ t ∈ terms, t.oneSided) → AntisymmetricArray orb (sp.length / 2) (sp.length / 2)
        (fun os => runCode orb s prog ('C' :: natStr (sp.length / 2)) os - s ('C' :: natStr (sp.length / 2)) os)) ∧
      ∀ nm, nm ≠ 'C' :: natStr (sp.length / 2) → nm ≠ tempName → runCode orb s prog nm = s nm := by
  have hs : ∀ t ∈ terms, Shape t := fun t ht => (hp t ht).shape
  have hlen : ∀ t ∈ terms, t.sqOp.lower.list.length = sp.length / 2 ∧ t.sqOp.upper.list.length = sp.length / 2 :=
    fun t ht => (hs t ht).lengths (hk t ht)
  have htgt : ∀ t ∈ terms, targetName ['C'] t.sqOp = 'C' :: natStr (sp.length / 2) := fun t ht => (hs t ht).target (hk t ht) _
  have hop : ∀ t ∈ terms, I.operator (sp.length / 2) (sp.length / 2) (contribution orb I t) = I.value orb t.printed t.tensors t.sqOp := by
    intro t ht
    have := operator_contribution orb I t
    rwa [(hlen t ht).1, (hlen t ht).2] at this
  by_cases hpm : perms = []
  · have hn : ∀ t ∈ terms, t.nRows = (1, 1) := fun t ht => ((hs t ht).perms_nil (hk t ht)).1 hpm
    obtain ⟨prog, h1, h2⟩ := ambitTerms_direct (R := R) orb hH ('C' :: natStr (sp.length / 2)) terms hs hn htgt hx init
    refine ⟨prog, h1, fun s ha _ => ?_⟩
    obtain ⟨r1, r2⟩ := h2 s ha
    have e : (fun os => runCode orb s prog ('C' :: natStr (sp.length / 2)) os - s ('C' :: natStr (sp.length / 2)) os) =
        fun os => (terms.map fun t => contribution orb I t os).sum := by funext os; rw [r1 os]; ring
    rw [e]
    refine ⟨?_, fun _ hside => ?_, fun nm n1 _ => r2 nm n1⟩
    · rw [operator_sum]
      refine congrArg List.sum (List.map_congr_left fun t ht => ?_)
      rw [hop t ht, (hs t ht).direct_printed (hn t ht)]
      unfold Term.amplitudes
      rw [value_smul, mul_comm]
    · refine AntisymmetricArray.sum terms _ fun t ht => ?_
      have := single_antisymmetric orb hI hH (hp t ht) (hside t ht) s (ha t ht)
      rwa [if_pos (hn t ht), (hlen t ht).1, (hlen t ht).2] at this
  · have hn : ∀ t ∈ terms, t.nRows ≠ (1, 1) := fun t ht h => hpm (((hs t ht).perms_nil (hk t ht)).2 h)
    obtain ⟨prog, h1, h2⟩ := ambitTerms_permuted (R := R) orb hH terms hne hs hn init
    refine ⟨prog, h1, fun s ha htemp => ?_⟩
    obtain ⟨r1, r2⟩ := h2 s ha
    have hl := List.getLast_mem hne
    set last := terms.getLast hne with hlast
    rw [htgt last hl] at r1 r2
    have ez : (fun os => (if init then 0 else s tempName os) + (terms.map fun t => contribution orb I t os).sum) =
        fun os => (terms.map fun t => contribution orb I t os).sum := by
      funext os
      rcases htemp with h | h | h
      · exact absurd h hpm
      · rw [h]; simp
      · rw [h]; simp
    rw [ez] at r1
    have e : (fun os => runCode orb s prog ('C' :: natStr (sp.length / 2)) os - s ('C' :: natStr (sp.length / 2)) os) =
        redistribute orb last fun os => (terms.map fun t => contribution orb I t os).sum := by funext os; rw [r1 os]; ring
    rw [e]
    refine ⟨?_, fun hsame hside => ?_, r2⟩
    · have := operator_redistribute orb hI (hs last hl) (hn last hl) (fun os => (terms.map fun t => contribution orb I t os).sum) (by
        intro os hos
        apply List.sum_eq_zero
        intro v hv
        obtain ⟨t, ht, rfl⟩ := List.mem_map.1 hv
        refine contribution_block orb I t os fun hin => hos ?_
        rw [← ((hs last hl).keyPerms (hk last hl)).1, ((hs t ht).keyPerms (hk t ht)).1]
        exact hin)
      rw [(hlen last hl).1, (hlen last hl).2] at this
      rw [this, operator_sum, List.smul_sum, List.map_map]
      refine congrArg List.sum (List.map_congr_left fun t ht => ?_)
      show (last.rows.length : R) • I.operator _ _ (contribution orb I t) = _
      rw [hop t ht]
      have hc : (last.rows.length : R) = algebraMap ℚ R (last.rows.length : ℚ) := by simp
      rw [hc, value_smul, bucket_printed (hs last hl) (hs t ht) (hk last hl) (hk t ht) (hn last hl)]
      unfold Term.amplitudes
      rw [value_smul, mul_comm]
    · have e2 : redistribute orb last (fun os => (terms.map fun t => contribution orb I t os).sum) =
          fun os => (terms.map fun t => redistribute orb t (contribution orb I t) os).sum := by
        funext os
        rw [redistribute_sum]
        refine congrArg List.sum (List.map_congr_left fun t ht => ?_)
        have ho := hsame last hl t ht
        have hpp := bucket_partitions (hs last hl) (hs t ht) (hk last hl) (hk t ht) ho
        unfold redistribute Term.rows
        rw [ho, hpp]
      rw [e2]
      refine AntisymmetricArray.sum terms _ fun t ht => ?_
      have := single_antisymmetric orb hI hH (hp t ht) (hside t ht) s (ha t ht)
      rwa [if_neg (hn t ht), (hlen t ht).1, (hlen t ht).2] at this

end

end Dsrg
