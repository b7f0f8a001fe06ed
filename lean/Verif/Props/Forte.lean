import Verif.Lemmas.ForteMain
import Verif.Props.Ambit

/-!
Property theorems about printed programs and generated C++ functions.
-/

namespace Dsrg

section
variable {O R M : Type} [Fintype O] [DecidableEq O] [Inhabited O] [CommRing R] [Algebra ℚ R] [AddCommGroup M] [Module R M]

/-! ### C69 Printed programs compute the sum of the terms -/

/-- `print_terms_ambit`: for every rank, the operator of what the program adds to the array `Cn` is the sum of the terms of rank `n`, each
times the number of permutations of its labels (among labels of the same spin); all other arrays but `temp` are unchanged.  If terms with
the same open spaces have the same operator, as canonical terms do, what is added is antisymmetric. -/
theorem C69_print (orb : Orbitals O) (I : Interp O R M) (hI : I.Antisymmetric) (hH : I.Hermitian) (s : Store O R) (ty : IType)
    (hty : ty.isAntisym = true) (terms : List Term) (hp : ∀ t ∈ terms, Printable t ∧ t.sqOp.upper.ty = ty)
    (hs : ∀ t ∈ terms, ArraysHold s I t.tensors) (hx : ∀ t ∈ terms, ∀ x ∈ t.tensors, ∀ n, x.arrayName ≠ 'C' :: natStr n) :
    ∃ prog, printTermsAmbit terms = .ok prog ∧
      (∀ n, I.operator n n (fun os => runCode orb s prog ('C' :: natStr n) os - s ('C' :: natStr n) os) =
        ((terms.filter fun t => decide (t.sqOp.lower.list.length = n)).map fun t =>
          algebraMap ℚ R ((spinPermutations t.sqOp.upper.list * spinPermutations t.sqOp.lower.list : ℕ) : ℚ) •
            I.value orb t.coeff t.tensors t.sqOp).sum) ∧
      ((∀ t ∈ terms, ∀ u ∈ terms, (t.sqOp.lower.list ++ t.sqOp.upper.list).map Index.space =
          (u.sqOp.lower.list ++ u.sqOp.upper.list).map Index.space → t.sqOp = u.sqOp) → (∀ t ∈ terms, OneSided t.tensors t.sqOp) →
        ∀ n, AntisymmetricArray orb n n fun os => runCode orb s prog ('C' :: natStr n) os - s ('C' :: natStr n) os) ∧
      ∀ nm, (∀ n, nm ≠ 'C' :: natStr n) → nm ≠ tempName → runCode orb s prog nm = s nm := by
  obtain ⟨b, hb⟩ := C58_total ty hty terms (fun t ht => by
    obtain ⟨⟨ts, op, c, h1, h2, h3, h4, h5, h6⟩, h7⟩ := hp t ht
    have : t.sqOp = op := by obtain ⟨-, -, -, m4⟩ := Term.make_ok.1 h1; rw [m4]
    exact ⟨ts, op, c, h1, h2, this ▸ h7, h5⟩)
  obtain ⟨prog, h1, h2, h3, h4⟩ := print_effect orb hI hH (fun t ht => (hp t ht).1) hx hb s hs
  exact ⟨prog, h1, h2, fun a1 a2 => h3 ⟨a1, a2⟩, h4⟩

/-- The function written by `save_terms_ambit_functions` without `add_t_dagger`, called with any factor: every target array holds the sum
of the terms of its rank, each times its number of permutations, whatever it held before; nothing else but `temp` has changed. -/
theorem C69_function (orb : Orbitals O) (I : Interp O R M) (hI : I.Antisymmetric) (hH : I.Hermitian) (s : Store O R) (terms : List Term)
    (hp : ∀ t ∈ terms, Printable t) (hs : ∀ t ∈ terms, ArraysHold s I t.tensors)
    (hx : ∀ t ∈ terms, ∀ x ∈ t.tensors, ∀ n, x.arrayName ≠ 'C' :: natStr n) (destroyH : Bool) (f : MainFunction)
    (hf : forteMain terms false destroyH = .ok f) (factor : R) :
    (∀ n, (∃ t ∈ terms, t.sqOp.lower.list.length = n) →
      I.operator n n (f.run orb factor s ('C' :: natStr n)) =
        ((terms.filter fun t => decide (t.sqOp.lower.list.length = n)).map fun t =>
          algebraMap ℚ R ((spinPermutations t.sqOp.upper.list * spinPermutations t.sqOp.lower.list : ℕ) : ℚ) •
            I.value orb t.coeff t.tensors t.sqOp).sum ∧
      ((∀ t ∈ terms, ∀ u ∈ terms, (t.sqOp.lower.list ++ t.sqOp.upper.list).map Index.space =
          (u.sqOp.lower.list ++ u.sqOp.upper.list).map Index.space → t.sqOp = u.sqOp) → (∀ t ∈ terms, OneSided t.tensors t.sqOp) →
        AntisymmetricArray orb n n (f.run orb factor s ('C' :: natStr n)))) ∧
    ∀ nm, (∀ t ∈ terms, nm ≠ 'C' :: natStr t.sqOp.lower.list.length) → nm ≠ tempName → f.run orb factor s nm = s nm := by
  obtain ⟨h1, h2⟩ := main_effect orb hI hH hp hx hf factor s hs
  exact ⟨fun n hn => ⟨(h1 n hn).1, fun a1 a2 => (h1 n hn).2 ⟨a1, a2⟩⟩, h2⟩

/-! ### C70 The argument `factor` -/

/-- The generated function never uses its argument `factor`. -/
theorem C70_violation_ignored (terms : List Term) (dag destroyH : Bool) (f : MainFunction) (hf : forteMain terms dag destroyH = .ok f)
    (orb : Orbitals O) (s : Store O R) (factor factor' : R) : f.run orb factor s = f.run orb factor' s := by
  obtain ⟨b, funcs, ranks, -, -, -, -, -, hbody⟩ := forteMain_ok hf
  have key : ∀ (l : List MainStmt), (∀ st ∈ l, ∀ nm, st ≠ .scale nm) → ∀ s : Store O R,
      l.foldl (MainStmt.exec orb factor) s = l.foldl (MainStmt.exec orb factor') s := by
    intro l
    induction l with
    | nil => exact fun _ _ => rfl
    | cons st l ih =>
      intro h s
      have e : MainStmt.exec orb factor s st = MainStmt.exec orb factor' s st := by
        cases st with
        | scale nm => exact absurd rfl (h _ (by simp) nm)
        | _ => rfl
      rw [List.foldl_cons, List.foldl_cons, e]
      exact ih (fun x hx => h x (List.mem_cons_of_mem _ hx)) _
  unfold MainFunction.run
  refine key _ ?_ s
  intro st hst nm
  rw [hbody] at hst
  rcases List.mem_append.1 hst with h | h
  · rcases List.mem_append.1 h with h | h
    · obtain ⟨n, -, rfl⟩ := List.mem_map.1 h; simp
    · obtain ⟨n, -, rfl⟩ := List.mem_map.1 h; simp
  · split_ifs at h
    · obtain ⟨n, -, h⟩ := List.mem_flatMap.1 h
      unfold transposeCode at h
      split_ifs at h <;> simp at h <;> (try rcases h with rfl | rfl | rfl) <;> (try rcases h with rfl | rfl) <;> simp_all
    · simp at h

/-! ### C71 add_t_dagger adds the transposed arrays -/

/-- Compared with the function written without `add_t_dagger`: the scalar is doubled, and to every element of the other targets (with
general orbitals) the element with annihilation and creation orbitals exchanged is added, so that the result is symmetric.  With
`destroy_h` the arrays `Hn` may be overwritten; nothing else changes. -/
theorem C71_dagger (terms : List Term) (destroyH : Bool) (f0 : MainFunction) (h0 : forteMain terms false destroyH = .ok f0)
    (orb : Orbitals O) (s : Store O R) (factor : R) :
    ∃ f1, forteMain terms true destroyH = .ok f1 ∧ f1.params = f0.params ∧
      (∀ n, (∃ t ∈ terms, t.openRank = n) →
        (n = 0 → ∀ os, f1.run orb factor s ('C' :: natStr n) os = 2 * f0.run orb factor s ('C' :: natStr n) os) ∧
        (n ≠ 0 → ∀ l u : List O, l.length = n → u.length = n → (∀ o ∈ l ++ u, orb.In ⟨.g, false⟩ o) →
          f1.run orb factor s ('C' :: natStr n) (l ++ u) =
            f0.run orb factor s ('C' :: natStr n) (l ++ u) + f0.run orb factor s ('C' :: natStr n) (u ++ l) ∧
          f1.run orb factor s ('C' :: natStr n) (u ++ l) = f1.run orb factor s ('C' :: natStr n) (l ++ u))) ∧
      ∀ nm, (∀ t ∈ terms, nm ≠ 'C' :: natStr t.openRank) → nm ≠ tempName →
        (destroyH = true → ∀ t ∈ terms, t.openRank ≠ 0 → nm ≠ 'H' :: natStr t.openRank) →
        f1.run orb factor s nm = f0.run orb factor s nm := by
  obtain ⟨b, funcs, ranks, hb, hF, hr, -, -, hbody⟩ := forteMain_ok h0
  have hok : ∃ f1, forteMain terms true destroyH = .ok f1 ∧ f1.params = f0.params := by
    unfold forteMain at h0 ⊢
    rw [hb] at h0 ⊢
    have h2 := mapM_ok_forall₂.2 hF
    simp only [h2, bind, Except.bind] at h0 ⊢
    cases h3 : sortNames (funcs.flatMap BlockFunction.tensors) with
    | error er => rw [h3] at h0; cases h0
    | ok tensors =>
      rw [h3] at h0
      simp only at h0
      cases h4 : sortNames ((((b.map fun e => e.1.length / 2).dedup).insertionSort (· ≤ ·)).map fun n => 'C' :: natStr n) with
      | error er => rw [h4] at h0; cases h0
      | ok targets =>
        rw [h4] at h0
        injection h0 with h0
        exact ⟨_, rfl, by rw [← h0]⟩
  obtain ⟨f1, h1, hpar⟩ := hok
  refine ⟨f1, h1, hpar, ?_⟩
  obtain ⟨b', funcs', ranks', hb', hF', hr', -, -, hbody'⟩ := forteMain_ok h1
  have eb : b' = b := by rw [hb] at hb'; injection hb' with h; exact h.symm
  subst eb
  have ef : funcs' = funcs := by
    have e1 := mapM_ok_forall₂.2 hF
    have e2 := mapM_ok_forall₂.2 hF'
    rw [e1] at e2; injection e2 with h; exact h.symm
  subst ef
  rw [← hr] at hr'
  subst hr'
  have hn : ranks'.Nodup := by rw [hr]; exact (List.perm_insertionSort _ _).nodup_iff.2 (List.nodup_dedup _)
  have hmem : ∀ n, n ∈ ranks' ↔ ∃ t ∈ terms, t.openRank = n := fun n => by rw [hr]; exact ranks_iff hb n
  simp only [Bool.false_eq_true, if_false, List.append_nil] at hbody
  simp only [if_true] at hbody'
  rw [← hbody] at hbody'
  set destroy := (destroyH && !(ranks'.any fun n => decide (n ≠ 0) && !decide (('H' :: natStr n) ∈ funcs'.flatMap BlockFunction.tensors))) with hd
  have hrun : f1.run orb factor s = (ranks'.flatMap (transposeCode destroy)).foldl (MainStmt.exec orb factor) (f0.run orb factor s) := by
    unfold MainFunction.run
    rw [hbody', List.foldl_append]
  obtain ⟨r1, r2⟩ := run_transposes orb factor destroy ranks' hn (f0.run orb factor s)
  rw [← hrun] at r1 r2
  refine ⟨fun n hnr => ⟨fun h os => ?_, fun h l u hl hu hg => ?_⟩, fun nm n1 n2 n3 => ?_⟩
  · rw [r1 n ((hmem n).2 hnr) os, if_pos h]
  · have key : ∀ l u : List O, l.length = n → u.length = n → (∀ o ∈ l ++ u, orb.In ⟨.g, false⟩ o) →
        f1.run orb factor s ('C' :: natStr n) (l ++ u) =
            f0.run orb factor s ('C' :: natStr n) (l ++ u) + f0.run orb factor s ('C' :: natStr n) (u ++ l) := by
      intro l u hl hu hg
      rw [r1 n ((hmem n).2 hnr), if_neg h, if_pos ⟨by simp; omega, hg⟩, List.drop_left' hl, List.take_left' hl]
    refine ⟨key l u hl hu hg, ?_⟩
    rw [key l u hl hu hg, key u l hu hl fun o ho => hg o (by rw [List.mem_append] at ho ⊢; exact ho.symm), add_comm]
  · refine r2 nm (fun n hnm => ?_) n2 (fun hdt n hnm h0 => ?_)
    · obtain ⟨t, ht, rfl⟩ := (hmem n).1 hnm
      exact n1 t ht
    · obtain ⟨t, ht, rfl⟩ := (hmem n).1 hnm
      refine n3 ?_ t ht h0
      rw [hd, Bool.and_eq_true] at hdt
      exact hdt.1

end

/-! ### C60 Generated C++ declares every variable before use -/

/-- In the main function every name is declared before it is used exactly when the transposes are not added, or a scalar is among the
terms, or `destroy_h` takes effect (every target has its `Hn` among the factors), or there are no terms. -/
theorem C60_main (terms : List Term) (dag destroyH : Bool) (f : MainFunction) (hf : forteMain terms dag destroyH = .ok f) :
    DeclaredBeforeUse f.params f.body ↔ dag = false ∨ terms = [] ∨ (∃ t ∈ terms, t.openRank = 0) ∨
      (destroyH = true ∧ ∀ t ∈ terms, ∃ u ∈ terms, ∃ x ∈ u.tensors, x.arrayName = 'H' :: natStr t.openRank) := by
  obtain ⟨b, funcs, ranks, hb, hF, hr, hpar, -, hbody⟩ := forteMain_ok hf
  have hmem : ∀ n, n ∈ ranks ↔ ∃ t ∈ terms, t.openRank = n := fun n => by rw [hr]; exact ranks_iff hb n
  have hn : ranks.Nodup := by rw [hr]; exact (List.perm_insertionSort _ _).nodup_iff.2 (List.nodup_dedup _)
  have hsort : ranks.Pairwise (· ≤ ·) := by rw [hr]; exact List.pairwise_insertionSort _ _
  have hC : ∀ n ∈ ranks, ('C' :: natStr n : PyStr) ∈ f.params := fun n hn => (hpar _).2 (Or.inr ⟨n, hn, rfl⟩)
  have hlen := hF.length_eq
  have hnil : ranks = [] ↔ terms = [] := by
    rw [List.eq_nil_iff_forall_not_mem, List.eq_nil_iff_forall_not_mem]
    constructor
    · intro h t ht; exact h _ ((hmem _).2 ⟨t, ht, rfl⟩)
    · intro h n hn; obtain ⟨t, ht, -⟩ := (hmem n).1 hn; exact h t ht
  rw [hbody, declared_append (by
    intro st hst
    rcases List.mem_append.1 hst with h | h
    · obtain ⟨n, -, rfl⟩ := List.mem_map.1 h; simp
    · obtain ⟨n, -, rfl⟩ := List.mem_map.1 h; simp)]
  have hfirst : ∀ st ∈ ranks.map (fun n => MainStmt.zero ('C' :: natStr n)) ++ funcs.map (fun g => MainStmt.call g (g.tensors ++ [g.target])),
      ∀ nm ∈ st.mentions, nm ∈ f.params := by
    intro st hst nm hnm
    rcases List.mem_append.1 hst with h | h
    · obtain ⟨n, hn, rfl⟩ := List.mem_map.1 h
      rw [List.mem_singleton.1 hnm]; exact hC n hn
    · obtain ⟨g, hg, rfl⟩ := List.mem_map.1 h
      rcases List.mem_append.1 hnm with h | h
      · exact (hpar nm).2 (Or.inl ⟨g, hg, h⟩)
      · obtain ⟨i, hi, rfl⟩ := List.getElem_of_mem hg
        have hi' : i < b.length := by omega
        have hs := blockFunction_ok ((List.forall₂_iff_get.1 hF).2 i hi' hi)
        rw [List.mem_singleton.1 h]
        refine (hpar _).2 (Or.inr ⟨b[i].1.length / 2, ?_, hs.target⟩)
        rw [hr, (List.perm_insertionSort _ _).mem_iff, List.mem_dedup]
        exact List.mem_map.2 ⟨b[i], List.getElem_mem hi', rfl⟩
  rw [and_iff_right hfirst]
  cases dag with
  | false => simp [DeclaredBeforeUse]
  | true =>
    simp only [if_true, Bool.true_eq_false, false_or]
    set destroy := (destroyH && !(ranks.any fun n => decide (n ≠ 0) && !decide (('H' :: natStr n) ∈ funcs.flatMap BlockFunction.tensors))) with hd
    have hdes : destroy = true ↔ destroyH = true ∧ ∀ n ∈ ranks, n ≠ 0 → ('H' :: natStr n : PyStr) ∈ funcs.flatMap BlockFunction.tensors := by
      rw [hd, Bool.and_eq_true, Bool.not_eq_true', List.any_eq_false]
      refine and_congr_right fun _ => forall_congr' fun n => forall_congr' fun _ => ?_
      simp only [Bool.and_eq_true, decide_eq_true_eq, Bool.not_eq_true', decide_eq_false_iff_not, not_and, not_not]
    have hH : ∀ n ∈ ranks, n ≠ 0 → destroy = true → ('H' :: natStr n : PyStr) ∈ f.params := by
      intro n hn h0 hdt
      obtain ⟨g, hg, h⟩ := List.mem_flatMap.1 ((hdes.1 hdt).2 n hn h0)
      exact (hpar _).2 (Or.inl ⟨g, hg, h⟩)
    by_cases hz : 0 ∈ ranks
    · have hright : ∃ t ∈ terms, t.openRank = 0 := (hmem 0).1 hz
      refine ⟨fun _ => Or.inr (Or.inl hright), fun _ => ?_⟩
      obtain ⟨rest, rfl, hrest⟩ : ∃ rest, ranks = 0 :: rest ∧ ∀ n ∈ rest, n ≠ 0 := by
        cases hrk : ranks with
        | nil => rw [hrk] at hz; simp at hz
        | cons m rest =>
          rw [hrk] at hz hsort hn
          have hm : m = 0 := by
            rcases List.mem_cons.1 hz with h | h
            · exact h.symm
            · have := (List.pairwise_cons.1 hsort).1 0 h; omega
          subst hm
          exact ⟨rest, rfl, fun n hn' h => (List.nodup_cons.1 hn).1 (h ▸ hn')⟩
      rw [List.flatMap_cons]
      have hc0 := hC 0 (by simp)
      have e0 : transposeCode destroy 0 = [.double ('C' :: natStr 0)] ++ (if destroy then [] else [.declareTemp]) := rfl
      rw [e0]
      cases hdt : destroy with
      | true =>
        refine ⟨fun nm hnm => by rw [List.mem_singleton.1 hnm]; exact hc0, ?_⟩
        exact (declared_transposes true f.params rest hrest (fun n hn => hC n (List.mem_cons_of_mem _ hn))
          (fun _ n hn => hH n (List.mem_cons_of_mem _ hn) (hrest n hn) hdt)).2 (Or.inl rfl)
      | false =>
        refine ⟨fun nm hnm => by rw [List.mem_singleton.1 hnm]; exact hc0, ?_⟩
        exact (declared_transposes false (tempName :: f.params) rest hrest
          (fun n hn => List.mem_cons_of_mem _ (hC n (List.mem_cons_of_mem _ hn))) (fun h => by cases h)).2 (Or.inr (Or.inl (by simp)))
    · have hpos : ∀ n ∈ ranks, n ≠ 0 := fun n hn h => hz (h ▸ hn)
      have htmp : tempName ∉ f.params := by
        intro h
        rcases (hpar _).1 h with ⟨g, hg, h⟩ | ⟨n, -, h⟩
        · obtain ⟨t, ht, x, hx, he⟩ := (used_iff hb hF tempName).1 (List.mem_flatMap.2 ⟨g, hg, h⟩)
          exact Tensor.arrayName_ne x he
        · exact append_natStr_ne ['C'] n h.symm
      rw [declared_transposes destroy f.params ranks hpos hC (fun hdt n hn => hH n hn (hpos n hn) hdt), hdes, hnil]
      have e1 : (∃ t ∈ terms, t.openRank = 0) ↔ False := by rw [← hmem]; exact iff_false_intro hz
      have e2 : (∀ n ∈ ranks, n ≠ 0 → ('H' :: natStr n : PyStr) ∈ funcs.flatMap BlockFunction.tensors) ↔
          ∀ t ∈ terms, ∃ u ∈ terms, ∃ x ∈ u.tensors, x.arrayName = 'H' :: natStr t.openRank := by
        constructor
        · intro h t ht
          have hm := (hmem _).2 ⟨t, ht, rfl⟩
          exact (used_iff hb hF _).1 (h _ hm (hpos _ hm))
        · intro h n hn _
          obtain ⟨t, ht, rfl⟩ := (hmem n).1 hn
          exact (used_iff hb hF _).2 (h t ht)
      rw [e1, e2]
      tauto

/-- Every block function called in the main function is called with its own parameters, and uses only its parameters and the local array
it declares. -/
theorem C60_blocks (terms : List Term) (hp : ∀ t ∈ terms, Printable t) (dag destroyH : Bool) (f : MainFunction)
    (hf : forteMain terms dag destroyH = .ok f) (g : BlockFunction) (args : List PyStr) (hg : MainStmt.call g args ∈ f.body) :
    args = g.tensors ++ [g.target] ∧ g.tensors.Nodup ∧ g.Closed := by
  obtain ⟨b, funcs, ranks, hb, hF, hr, -, -, hbody⟩ := forteMain_ok hf
  rw [hbody] at hg
  rcases List.mem_append.1 hg with h | h
  · rcases List.mem_append.1 h with h | h
    · obtain ⟨n, -, h⟩ := List.mem_map.1 h; cases h
    · obtain ⟨g', hg', h⟩ := List.mem_map.1 h
      injection h with e1 e2
      subst e1
      obtain ⟨i, hi, rfl⟩ := List.getElem_of_mem hg'
      have hi' : i < b.length := by rw [hF.length_eq]; exact hi
      have hs := blockFunction_ok ((List.forall₂_iff_get.1 hF).2 i hi' hi)
      have key : ∀ q ∈ b[i].2, ∀ t ∈ q.2, Shape t ∧ t.bucketKey = .ok (b[i].1, q.1) := fun q hq t ht => by
        obtain ⟨h1, h2⟩ := ((categorize_flat hb).2 _ (Buckets.mem_flat.2 ⟨_, List.getElem_mem hi', q, hq, rfl⟩)).2 t ht
        exact ⟨(hp t h1).shape, h2⟩
      exact ⟨e2.symm, hs.nodup, blockFunction_closed hs key fun q hq => ambitTerms_total (fun t ht => (key q hq t ht).1) _⟩
  · cases dag with
    | false => simp at h
    | true =>
      simp only [if_true, List.mem_flatMap] at h
      obtain ⟨n, -, h⟩ := h
      unfold transposeCode at h
      split_ifs at h <;> simp at h

/-! ### C72 Names save_terms_ambit_functions can handle -/

/-- The function can be written exactly when every factor is called `H1` to `H9`, `T1` to `T9` or `C0` to `C9` and no term has more than nine
creation operators; otherwise `KeyError` is raised. -/
theorem C72_names (ty : IType) (hty : ty.isAntisym = true) (terms : List Term) (hp : ∀ t ∈ terms, Printable t ∧ t.sqOp.upper.ty = ty)
    (hbal : ∀ t ∈ terms, ∀ x ∈ t.tensors, x.upper.size = x.lower.size) (dag destroyH : Bool) :
    ((∃ f, forteMain terms dag destroyH = .ok f) ↔
      (∀ t ∈ terms, ∀ x ∈ t.tensors, KnownName x.arrayName) ∧ ∀ t ∈ terms, t.sqOp.upper.list.length ≤ 9) ∧
    ((¬ ∃ f, forteMain terms dag destroyH = .ok f) → forteMain terms dag destroyH = .error .keyError) := by
  obtain ⟨b, hb⟩ := C58_total ty hty terms (fun t ht => by
    obtain ⟨⟨ts, op, c, h1, h2, h3, h4, h5, h6⟩, h7⟩ := hp t ht
    have : t.sqOp = op := by obtain ⟨-, -, -, m4⟩ := Term.make_ok.1 h1; rw [m4]
    exact ⟨ts, op, c, h1, h2, this ▸ h7, h5⟩)
  have hin : ∀ e ∈ b, ∀ q ∈ e.2, ∀ t ∈ q.2, t ∈ terms := fun e he q hq t ht =>
    (((categorize_flat hb).2 _ (Buckets.mem_flat.2 ⟨e, he, q, hq, rfl⟩)).2 t ht).1
  have hin' : ∀ e ∈ b, ∀ t ∈ e.2.flatMap Prod.snd, t ∈ terms := fun e he t ht => by
    obtain ⟨q, hq, ht⟩ := List.mem_flatMap.1 ht
    exact hin e he q hq t ht
  have hblock := fun e (he : e ∈ b) => blockFunction_total (e := e) (fun t ht => hbal t (hin' e he t ht))
    (fun q hq => ambitTerms_total (fun t ht => (hp t (hin e he q hq t ht)).1.shape) _)
  have hrank : ∀ t ∈ terms, t.openRank = t.sqOp.upper.list.length := by
    intro t ht
    have := (hp t ht).1.shape.size
    unfold Term.openRank
    omega
  by_cases hk : ∀ t ∈ terms, ∀ x ∈ t.tensors, KnownName x.arrayName
  · obtain ⟨funcs, h2, hF⟩ := mapM_exists (l := b) (f := fun e => blockFunction e.1 e.2) (P := fun e g => blockFunction e.1 e.2 = .ok g) (by
      intro e he
      rcases hblock e he with ⟨⟨g, hg⟩, -⟩ | ⟨-, t, ht, x, hx, hn⟩
      · exact ⟨g, hg, hg⟩
      · exact absurd ((known_iff _).2 (hk t (hin' e he t ht) x hx)) hn)
    obtain ⟨tensors, h3⟩ := sortNames_total (l := funcs.flatMap BlockFunction.tensors) (by
      intro nm hnm
      obtain ⟨t, ht, x, hx, rfl⟩ := (used_iff hb hF nm).1 hnm
      exact (known_iff _).2 (hk t ht x hx))
    by_cases hr : ∀ t ∈ terms, t.sqOp.upper.list.length ≤ 9
    · obtain ⟨targets, h4⟩ := sortNames_total (l := (((b.map fun e => e.1.length / 2).dedup).insertionSort (· ≤ ·)).map fun n => 'C' :: natStr n) (by
        intro nm hnm
        obtain ⟨n, hn, rfl⟩ := List.mem_map.1 hnm
        obtain ⟨t, ht, rfl⟩ := (ranks_iff hb n).1 hn
        rw [known_iff, known_target, hrank t ht]
        exact hr t ht)
      have hex : ∃ f, forteMain terms dag destroyH = .ok f := by
        unfold forteMain
        rw [hb]
        simp only [h2, h3, h4, bind, Except.bind]
        exact ⟨_, rfl⟩
      exact ⟨⟨fun _ => ⟨hk, hr⟩, fun _ => hex⟩, fun h => absurd hex h⟩
    · have h4 := sortNames_error (l := (((b.map fun e => e.1.length / 2).dedup).insertionSort (· ≤ ·)).map fun n => 'C' :: natStr n) (by
        push Not at hr
        obtain ⟨t, ht, h9⟩ := hr
        refine ⟨_, List.mem_map_of_mem ((ranks_iff hb t.openRank).2 ⟨t, ht, rfl⟩), ?_⟩
        rw [known_iff, known_target, hrank t ht]
        omega)
      have herr : forteMain terms dag destroyH = .error .keyError := by
        unfold forteMain
        rw [hb]
        simp only [h2, h3, h4, bind, Except.bind]
      refine ⟨⟨?_, fun h => absurd h.2 hr⟩, fun _ => herr⟩
      rintro ⟨f, hf⟩
      rw [herr] at hf; cases hf
  · have herr : forteMain terms dag destroyH = .error .keyError := by
      push Not at hk
      obtain ⟨t, ht, x, hx, hn⟩ := hk
      obtain ⟨-, -, -, p4⟩ := C58_partition terms b hb
      obtain ⟨e, he, q, hq, -, htq⟩ := p4 t ht
      have h2 := mapM_keyError (l := b) (f := fun e => blockFunction e.1 e.2) (by
        intro e he er her
        rcases hblock e he with ⟨⟨g, hg⟩, -⟩ | ⟨h, -⟩
        · rw [hg] at her; cases her
        · rw [h] at her; injection her with h; exact h.symm) ⟨e, he, .keyError, by
          rcases hblock e he with ⟨-, h⟩ | ⟨h, -⟩
          · exact absurd ((known_iff _).1 (h t (List.mem_flatMap.2 ⟨q, hq, htq⟩) x hx)) hn
          · exact h⟩
      unfold forteMain
      rw [hb]
      simp only [h2, bind, Except.bind]
    refine ⟨⟨?_, fun h => absurd h.1 hk⟩, fun _ => herr⟩
    rintro ⟨f, hf⟩
    rw [herr] at hf; cases hf

/-! ### Examples and counterexamples -/

section
theorem ok_with {α : Type} {e : Except PyErr α} (P : α → Prop) [DecidablePred P]
    (h : (match e with | .ok x => decide (P x) | .error _ => false) = true) : ∃ x, e = .ok x ∧ P x := by
  cases e with
  | error er => cases h
  | ok x => exact ⟨x, rfl, of_decide_eq_true h⟩

theorem printable_make {t : Term} (ts : List Tensor) (op : SqOp) (c : ℚ) (h : Term.make ts op c = .ok t)
    (hop : Indices.make op.upper.ty op.upper.list = .ok op.upper ∧ Indices.make op.lower.ty op.lower.list = .ok op.lower ∧
      IndicesPair.make op.upper op.lower = .ok op)
    (hts : ∀ x ∈ ts, Indices.make x.upper.ty x.upper.list = .ok x.upper ∧ Indices.make x.lower.ty x.lower.list = .ok x.lower ∧
      Tensor.make x.cls x.upper x.lower x.name x.priority = .ok x)
    (ha : op.upper.ty.isAntisym = true ∧ t.diag = ∅ ∧ op.upper.list.length = op.lower.list.length) : Printable t :=
  ⟨ts, op, c, h, hop, hts, ha.1, ha.2.1, ha.2.2⟩

/-- Deltas, in every array. -/
def deltaStore : Store (Fin 2) ℚ := fun _ os => match os with | [a, b] => if a = b then 1 else 0 | _ => 0

/-- `H^{a0}_{g0} T^{a1}_{g1} a^{g0 g1}_{a0 a1}` and `1/2 H^{a0}_{g0} a^{g0}_{a0}` meet the hypotheses, the function can be written, and the
terms are not zero. -/
theorem C69_example : ∃ t1 t2,
    Term.make [soTensor .hamiltonian 'H' 0 [lab .a 0] [lab .g 0], soTensor .cluster 'T' 1 [lab .a 1] [lab .g 1]]
      (soOp [lab .g 0, lab .g 1] [lab .a 0, lab .a 1]) 1 = .ok t1 ∧
    Term.make [soTensor .hamiltonian 'H' 0 [lab .a 0] [lab .g 0]] (soOp [lab .g 0] [lab .a 0]) (1 / 2) = .ok t2 ∧
    Printable t1 ∧ Printable t2 ∧ OneSided t1.tensors t1.sqOp ∧ OneSided t2.tensors t2.sqOp ∧
    (∀ t ∈ [t1, t2], ArraysHold deltaStore signWorld t.tensors) ∧
    signWorld.value twoActive t1.coeff t1.tensors t1.sqOp = 2 ∧
    ∃ f, forteMain [t1, t2] false false = .ok f ∧ f.run twoActive (1 : ℚ) deltaStore ['C', '1'] [0, 0] = 1 / 2 ∧
      f.run twoActive (1 : ℚ) deltaStore ['C', '2'] [0, 1, 0, 1] = 2 ∧ f.run twoActive (1 : ℚ) deltaStore ['C', '2'] [0, 1, 1, 0] = -2 := by
  refine ⟨_, _, rfl, rfl, printable_make [soTensor .hamiltonian 'H' 0 [lab .a 0] [lab .g 0], soTensor .cluster 'T' 1 [lab .a 1] [lab .g 1]]
      (soOp [lab .g 0, lab .g 1] [lab .a 0, lab .a 1]) 1 rfl (by decide +kernel) (by decide +kernel) (by decide +kernel),
    printable_make [soTensor .hamiltonian 'H' 0 [lab .a 0] [lab .g 0]]
      (soOp [lab .g 0] [lab .a 0]) (1 / 2) rfl (by decide +kernel) (by decide +kernel) (by decide +kernel), ?_, ?_, ?_,
    ?_, ?_⟩
  · unfold OneSided; decide +kernel
  · unfold OneSided; decide +kernel
  · have e : ∀ x : Tensor, x.upper.list.length = 1 ∧ x.lower.list.length = 1 → ∀ u l : List (Fin 2), u.length = x.upper.list.length →
        l.length = x.lower.list.length → deltaStore x.arrayName (u ++ l) = signWorld.tensor x.cls x.name u l := by
      intro x hx u l hu hl
      rw [hx.1] at hu
      rw [hx.2] at hl
      obtain ⟨a, rfl⟩ := List.length_eq_one_iff.1 hu
      obtain ⟨b, rfl⟩ := List.length_eq_one_iff.1 hl
      rfl
    intro t ht x hx
    refine e x ?_
    revert x t
    decide +kernel
  · decide +kernel
  · exact ok_with (fun f : MainFunction => f.run twoActive (1 : ℚ) deltaStore ['C', '1'] [0, 0] = 1 / 2 ∧
      f.run twoActive (1 : ℚ) deltaStore ['C', '2'] [0, 1, 0, 1] = 2 ∧ f.run twoActive (1 : ℚ) deltaStore ['C', '2'] [0, 1, 1, 0] = -2)
      (by decide +kernel)

/-- Factors for the next counterexample: antisymmetric and symmetric under the exchange of upper and lower labels. -/
def lopsidedStore : Store (Fin 2) ℚ := fun nm os =>
  if nm = ['X', '_', '2', '_', '1'] then (match os with | [p, q, r] => if r = 0 then orbSign [p, q] else 0 | _ => 0)
  else if nm = ['X', '_', '1', '_', '2'] then (match os with | [r, p, q] => if r = 0 then orbSign [p, q] else 0 | _ => 0)
  else if nm = ['Y', '_', '0', '_', '1'] ∨ nm = ['Y', '_', '1', '_', '0'] then (if os = [1] then 1 else 0)
  else 0

/-- The condition on the operators is needed for antisymmetry: `X^{a2 a3}_{a0} Y_{a1} a^{a0 a1}_{a2 a3}` is antisymmetrised over its
creation operators and `X^{a0}_{a2 a3} Y^{a1} a^{a2 a3}_{a0 a1}` over its annihilation operators, but they share a bucket, since the
permutations print the same string; together they are antisymmetrised only over the annihilation operators. -/
theorem C69_condition_needed : ∃ t1 t2,
    Term.make [soTensor .tensor 'X' 0 [lab .a 2, lab .a 3] [lab .a 0], soTensor .tensor 'Y' 1 [] [lab .a 1]]
      (soOp [lab .a 0, lab .a 1] [lab .a 2, lab .a 3]) 1 = .ok t1 ∧
    Term.make [soTensor .tensor 'X' 0 [lab .a 0] [lab .a 2, lab .a 3], soTensor .tensor 'Y' 1 [lab .a 1] []]
      (soOp [lab .a 2, lab .a 3] [lab .a 0, lab .a 1]) 1 = .ok t2 ∧
    t1.diag = ∅ ∧ t2.diag = ∅ ∧ OneSided t1.tensors t1.sqOp ∧ OneSided t2.tensors t2.sqOp ∧
    ∃ prog, printTermsAmbit [t1, t2] = .ok prog ∧ ¬ AntisymmetricArray twoActive 2 2 fun os => runCode twoActive lopsidedStore prog ['C', '2'] os := by
  refine ⟨_, _, rfl, rfl, ?_, ?_, ?_, ?_, ?_⟩
  · decide +kernel
  · decide +kernel
  · unfold OneSided; decide +kernel
  · unfold OneSided; decide +kernel
  · have : ∀ e : Except PyErr (List AmbitStmt), (∃ prog, e = .ok prog ∧ runCode twoActive lopsidedStore prog ['C', '2'] [0, 1, 1, 0] ≠
        - runCode twoActive lopsidedStore prog ['C', '2'] [0, 1, 0, 1]) →
        ∃ prog, e = .ok prog ∧ ¬ AntisymmetricArray twoActive 2 2 fun os => runCode twoActive lopsidedStore prog ['C', '2'] os := by
      rintro e ⟨prog, h1, h2⟩
      exact ⟨prog, h1, fun h => h2 ((h [] [] 0 1 rfl).2 [0, 1] rfl rfl)⟩
    exact this _ (ok_with _ (by decide +kernel))

/-! ### C73 Operators that change the number of particles -/

/-- `X_{a0} Y_{a1} a^{a0 a1}` and `X^{a0} Y^{a1} a_{a0 a1}` share a bucket, and the array of the second one is never written, although it
is when the second one is printed alone. -/
theorem C73_violation_unbalanced : ∃ t1 t2,
    Term.make [soTensor .tensor 'X' 0 [] [lab .a 0], soTensor .tensor 'Y' 1 [] [lab .a 1]] (soOp [lab .a 0, lab .a 1] []) 1 = .ok t1 ∧
    Term.make [soTensor .tensor 'X' 0 [lab .a 0] [], soTensor .tensor 'Y' 1 [lab .a 1] []] (soOp [] [lab .a 0, lab .a 1]) 1 = .ok t2 ∧
    (∃ prog, printTermsAmbit [t1, t2] = .ok prog ∧ ['C', '_', '2', '_', '0'] ∉ prog.flatMap AmbitStmt.mentions) ∧
    ∃ prog, printTermsAmbit [t2] = .ok prog ∧ ['C', '_', '2', '_', '0'] ∈ prog.flatMap AmbitStmt.mentions := by
  refine ⟨_, _, rfl, rfl, ok_with _ (by decide +kernel), ok_with _ (by decide +kernel)⟩

/-! ### C60, C70, C71, C72: examples and counterexamples -/

/-- With the transposes of `H^{c0}_{v0} a^{v0}_{c0}` alone the generated C++ does not compile: `temp` is not declared. -/
theorem C60_violation_transpose : ∃ t, Term.make [soTensor .hamiltonian 'H' 0 [lab .c 0] [lab .v 0]] (soOp [lab .v 0] [lab .c 0]) 1 = .ok t ∧
    Printable t ∧ ∃ f, forteMain [t] true false = .ok f ∧ ¬ DeclaredBeforeUse f.params f.body := by
  refine ⟨_, rfl, printable_make [soTensor .hamiltonian 'H' 0 [lab .c 0] [lab .v 0]]
      (soOp [lab .v 0] [lab .c 0]) 1 rfl (by decide +kernel) (by decide +kernel) (by decide +kernel), ?_⟩
  have : ∀ terms, (¬ (true = false ∨ terms = [] ∨ (∃ t ∈ terms, t.openRank = 0) ∨
      (false = true ∧ ∀ t ∈ terms, ∃ u ∈ terms, ∃ x ∈ u.tensors, x.arrayName = 'H' :: natStr t.openRank))) →
      (∃ f, forteMain terms true false = .ok f ∧ True) → ∃ f, forteMain terms true false = .ok f ∧ ¬ DeclaredBeforeUse f.params f.body := by
    rintro terms h ⟨f, h1, -⟩
    exact ⟨f, h1, by rw [C60_main _ _ _ f h1]; exact h⟩
  exact this _ (by decide +kernel) (ok_with _ (by decide +kernel))

/-- `H^{a0}_{a1} a^{a0 a1}`: the block function writes the array `C_0_2`, which is not among its parameters. -/
theorem C60_violation_unbalanced : ∃ t, Term.make [soTensor .hamiltonian 'H' 0 [lab .a 0] [lab .a 1]] (soOp [lab .a 0, lab .a 1] []) 1 = .ok t ∧
    ∃ f, forteMain [t] false false = .ok f ∧ ∃ g args, MainStmt.call g args ∈ f.body ∧ ¬ g.Closed := by
  refine ⟨_, rfl, ?_⟩
  have : ∀ e : Except PyErr MainFunction, (∃ f, e = .ok f ∧ f.body.any (fun st => match st with
      | .call g _ => g.body.any fun x => x.mentions.any fun nm => decide (¬ (nm ∈ g.tensors ∨ nm = g.target ∨ nm = tempName ∧ g.declaresTemp = true))
      | _ => false) = true) → ∃ f, e = .ok f ∧ ∃ g args, MainStmt.call g args ∈ f.body ∧ ¬ g.Closed := by
    rintro e ⟨f, h1, h2⟩
    obtain ⟨st, hst, h⟩ := List.any_eq_true.1 h2
    cases st with
    | call g args =>
      obtain ⟨x, hx, h⟩ := List.any_eq_true.1 h
      obtain ⟨nm, hnm, h⟩ := List.any_eq_true.1 h
      exact ⟨f, h1, g, args, hst, fun hc => of_decide_eq_true h (hc x hx nm hnm)⟩
    | _ => simp at h
  exact this _ (ok_with _ (by decide +kernel))

/-- A function of two ranks in which everything is declared. -/
theorem C60_example : ∃ t1 t2,
    Term.make [soTensor .hamiltonian 'H' 0 [lab .a 0] [lab .g 0], soTensor .cluster 'T' 1 [lab .a 1] [lab .g 1]]
      (soOp [lab .g 0, lab .g 1] [lab .a 0, lab .a 1]) 1 = .ok t1 ∧
    Term.make [soTensor .hamiltonian 'H' 0 [lab .a 0] [lab .v 0], soTensor .cluster 'T' 1 [lab .v 0] [lab .a 0]] (soOp [] []) 1 = .ok t2 ∧
    ∃ f, forteMain [t1, t2] true false = .ok f ∧ f.params = [['H', '1'], ['T', '1'], ['C', '0'], ['C', '2']] ∧ f.body.length = 9 ∧
      DeclaredBeforeUse f.params f.body := by
  refine ⟨_, _, rfl, rfl, ?_⟩
  have : ∀ terms, (true = false ∨ terms = [] ∨ (∃ t ∈ terms, t.openRank = 0) ∨
      (false = true ∧ ∀ t ∈ terms, ∃ u ∈ terms, ∃ x ∈ u.tensors, x.arrayName = 'H' :: natStr t.openRank)) →
      (∃ f, forteMain terms true false = .ok f ∧ f.params = [['H', '1'], ['T', '1'], ['C', '0'], ['C', '2']] ∧ f.body.length = 9) →
      ∃ f, forteMain terms true false = .ok f ∧ f.params = [['H', '1'], ['T', '1'], ['C', '0'], ['C', '2']] ∧ f.body.length = 9 ∧
        DeclaredBeforeUse f.params f.body := by
    rintro terms h ⟨f, h1, h2, h3⟩
    exact ⟨f, h1, h2, h3, (C60_main _ _ _ f h1).2 h⟩
  exact this _ (by decide +kernel) (ok_with _ (by decide +kernel))

/-- The function for `H^{a0}_{g0} a^{g0}_{a0}` computes the same nonzero array for the factors 1 and 2. -/
theorem C70_violation_example : ∃ t, Term.make [soTensor .hamiltonian 'H' 0 [lab .a 0] [lab .g 0]] (soOp [lab .g 0] [lab .a 0]) 1 = .ok t ∧
    ∃ f, forteMain [t] false false = .ok f ∧ f.run twoActive (1 : ℚ) deltaStore ['C', '1'] [0, 0] = 1 ∧
      f.run twoActive (2 : ℚ) deltaStore ['C', '1'] [0, 0] = 1 := by
  refine ⟨_, rfl, ok_with (fun f : MainFunction => f.run twoActive (1 : ℚ) deltaStore ['C', '1'] [0, 0] = 1 ∧
    f.run twoActive (2 : ℚ) deltaStore ['C', '1'] [0, 0] = 1) (by decide +kernel)⟩

/-- For `H^{a0}_{g0} a^{g0}_{a0}` with an array `H1` that is not symmetric, the transpose is added. -/
theorem C71_example : ∃ t, Term.make [soTensor .hamiltonian 'H' 0 [lab .a 0] [lab .g 0]] (soOp [lab .g 0] [lab .a 0]) 1 = .ok t ∧
    (∃ f, forteMain [t] false true = .ok f ∧
      f.run twoActive (1 : ℚ) (fun nm os => if nm = ['H', '1'] ∧ os = [0, 1] then 1 else 0) ['C', '1'] [0, 1] = 1 ∧
      f.run twoActive (1 : ℚ) (fun nm os => if nm = ['H', '1'] ∧ os = [0, 1] then 1 else 0) ['C', '1'] [1, 0] = 0) ∧
    ∃ f, forteMain [t] true true = .ok f ∧
      f.run twoActive (1 : ℚ) (fun nm os => if nm = ['H', '1'] ∧ os = [0, 1] then 1 else 0) ['C', '1'] [0, 1] = 1 ∧
      f.run twoActive (1 : ℚ) (fun nm os => if nm = ['H', '1'] ∧ os = [0, 1] then 1 else 0) ['C', '1'] [1, 0] = 1 := by
  refine ⟨_, rfl, ok_with (fun f : MainFunction =>
      f.run twoActive (1 : ℚ) (fun nm os => if nm = ['H', '1'] ∧ os = [0, 1] then 1 else 0) ['C', '1'] [0, 1] = 1 ∧
      f.run twoActive (1 : ℚ) (fun nm os => if nm = ['H', '1'] ∧ os = [0, 1] then 1 else 0) ['C', '1'] [1, 0] = 0) (by decide +kernel),
    ok_with (fun f : MainFunction =>
      f.run twoActive (1 : ℚ) (fun nm os => if nm = ['H', '1'] ∧ os = [0, 1] then 1 else 0) ['C', '1'] [0, 1] = 1 ∧
      f.run twoActive (1 : ℚ) (fun nm os => if nm = ['H', '1'] ∧ os = [0, 1] then 1 else 0) ['C', '1'] [1, 0] = 1) (by decide +kernel)⟩

/-- Terms with densities, which every contraction in a correlated state has, cannot be written: `H^{a0}_{a1} L^{a1}_{a0}` raises
`KeyError`. -/
theorem C72_violation_density : ∃ t, Term.make [soTensor .hamiltonian 'H' 0 [lab .a 0] [lab .a 1], soTensor .cumulant 'L' 1 [lab .a 1] [lab .a 0]]
      (soOp [] []) 1 = .ok t ∧ Printable t ∧ forteMain [t] false false = .error .keyError := by
  exact ⟨_, rfl, printable_make [soTensor .hamiltonian 'H' 0 [lab .a 0] [lab .a 1], soTensor .cumulant 'L' 1 [lab .a 1] [lab .a 0]]
      (soOp [] []) 1 rfl (by decide +kernel) (by decide +kernel) (by decide +kernel), by decide +kernel⟩

end

end Dsrg
