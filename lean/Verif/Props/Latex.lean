import Verif.Lemmas.LatexValue
import Verif.Lemmas.BucketProgram
import Verif.Lemmas.RelabelTotal
import Verif.Lemmas.Singlet
import Verif.Spec.Toy

/-!
C84: the LaTeX output of terms.
-/

namespace Dsrg

/-! ### C84 LaTeX formulas mean the terms they are printed for -/

theorem small_den {c : ℚ} {n N : Nat} (hn : 0 < n) (hd : n ∣ N) (hN : 0 < N) (h : c.den * N ≤ 1000000000) : (c / (n : ℚ)).den ≤ 1000000000 := by
  refine le_trans ?_ h
  have h1 : (c / (n : ℚ)).den ∣ c.den * n := by
    have e : c / (n : ℚ) = Rat.divInt c.num ((c.den * n : ℕ) : ℤ) := by
      rw [Rat.divInt_eq_div]
      conv_lhs => rw [← Rat.num_div_den c]
      push_cast
      rw [div_div]
    rw [e]
    have := Rat.den_dvd c.num ((c.den * n : ℕ) : ℤ)
    exact_mod_cast this
  exact le_trans (Nat.le_of_dvd (Nat.mul_pos c.den_pos hn) h1) (Nat.mul_le_mul_left _ (Nat.le_of_dvd hN hd))

section
variable {O R M : Type} [Fintype O] [DecidableEq O] [Inhabited O] [CommRing R] [Algebra ℚ R] [AddCommGroup M] [Module R M]

/-- `latex()` with the default permutation format prints a formula whose meaning is the term: the factors and the operator of the term,
antisymmetrized as the `P` in front of them says, with the coefficient divided accordingly. -/
theorem C84_latex (limit : ℚ → Nat → ℚ) (hlim : ClosestFraction limit) (orb : Orbitals O) (I : Interp O R M) (ts : List Tensor) (op : SqOp)
    (c : ℚ) (t : Term) (ht : Term.make ts op c = .ok t) (hop : op.Constructed) (hd : t.diag = ∅)
    (hI : op.upper.ty.isAntisym = true → I.Antisymmetric)
    (hden : c.den * (op.upper.list.length.factorial * op.lower.list.length.factorial) ≤ 1000000000) :
    ∃ F : LatexFormula, (∀ dollar delimiter backslash, t.latex limit dollar true delimiter backslash =
        .ok (decorated dollar backslash (F.text delimiter))) ∧
      F.meaning orb I = I.value orb c ts op ∧ F.factors.Perm ts ∧
      F.op = if op.upper.list = [] ∧ op.lower.list = [] then none else some (op.upper.list, op.lower.list) := by
  obtain ⟨n, perm, opText, F, h1, hF, h2, h3⟩ := latex_printed ht hop hd
  obtain ⟨-, -, -, m4⟩ := Term.make_ok.1 ht
  have hco : t.coeff = c := by rw [m4]
  have hperm : t.tensors.Perm ts := by rw [m4]; exact sortTensors_perm ts
  refine ⟨F, fun dollar delimiter backslash => latex_text limit hlim t dollar true delimiter backslash (by rw [if_pos rfl]; exact h1) F hF.coeff
    ?_ hF.factors h2 h3, ?_, hF.factors ▸ hperm, hF.opLabels⟩
  · rw [hF.coeff, hco]
    exact small_den hF.pos hF.dvd (Nat.mul_pos (Nat.factorial_pos _) (Nat.factorial_pos _)) hden
  · have hg : F.op.getD ([], []) = (op.upper.list, op.lower.list) := by
      rw [hF.opLabels]
      split
      · rename_i h; rw [h.1, h.2]; rfl
      · rfl
    have hsing : (F.orders op.upper.list = {op.upper.list} ∧ F.orders op.lower.list = {op.lower.list}) ∨ I.Antisymmetric := by
      rcases hF.parts with h | h
      · left
        unfold LatexFormula.orders
        rw [h]
        exact ⟨rfl, rfl⟩
      · exact Or.inr (hI h)
    rw [meaning_count orb F op hg (Indices.make_eq hop.1).2.1 (Indices.make_eq hop.2.1).2.1 hsing hF.upper hF.lower, hF.cards, hF.coeff, hco,
      hF.factors, I.value_perm orb _ hperm op, mul_div_cancel₀]
    exact_mod_cast hF.pos.ne'

/-- With `permute_format=False` no `P` is printed, and the operator always. -/
theorem C84_plain (limit : ℚ → Nat → ℚ) (hlim : ClosestFraction limit) (orb : Orbitals O) (I : Interp O R M) (ts : List Tensor) (op : SqOp)
    (c : ℚ) (t : Term) (ht : Term.make ts op c = .ok t) (hop : op.Constructed) (hden : c.den ≤ 1000000000) :
    ∃ F : LatexFormula, (∀ dollar delimiter backslash, t.latex limit dollar false delimiter backslash =
        .ok (decorated dollar backslash (F.text delimiter))) ∧
      F.meaning orb I = I.value orb c ts op ∧ F.perms = [] ∧ F.factors.Perm ts ∧ F.op = some (op.upper.list, op.lower.list) := by
  obtain ⟨-, -, -, m4⟩ := Term.make_ok.1 ht
  have hco : t.coeff = c := by rw [m4]
  have hsq : t.sqOp = op := by rw [m4]
  have hperm : t.tensors.Perm ts := by rw [m4]; exact sortTensors_perm ts
  refine ⟨⟨c, [], t.tensors, some (op.upper.list, op.lower.list)⟩, fun dollar delimiter backslash =>
    latex_text limit hlim t dollar false delimiter backslash (n := 1) (perm := []) (op := SqOp.latex op) (by rw [hsq]; rfl) _
      (by simp [hco]) hden rfl rfl (by rw [← hsq]; exact (by rw [if_pos (by simp [SqOp.latex])]; exact (opText_eq t.sqOp).symm)), ?_, rfl, hperm, rfl⟩
  rw [meaning_count orb _ op rfl (Indices.make_eq hop.1).2.1 (Indices.make_eq hop.2.1).2.1 (Or.inl ⟨rfl, rfl⟩) (orders_perm _ _) (orders_perm _ _)]
  simp only [LatexFormula.orders, List.find?_nil, Finset.card_singleton, mul_one, Nat.cast_one, one_mul]
  exact I.value_perm orb _ hperm op

end

/-- The printed text can be read in one way only: it determines the fraction, the `P`, the factors and the operator. -/
theorem C84_unambiguous (F G : LatexFormula) (delimiter : Bool)
    (hn : ∀ x ∈ F.factors ++ G.factors, '^' ∉ x.name ∧ ' ' ∉ x.name ∧ x.name ≠ ['a'] ∧ x.name ≠ [])
    (hp : ∀ p ∈ F.perms ++ G.perms, p ≠ [] ∧ ∀ g ∈ p, g ≠ []) (h : F.text delimiter = G.text delimiter) :
    F.coeff = G.coeff ∧ F.perms = G.perms ∧ F.op = G.op ∧
      F.factors.map (fun x => (x.name, x.upper.list, x.lower.list)) = G.factors.map fun x => (x.name, x.upper.list, x.lower.list) := by
  obtain ⟨h1, h2, h3, h4⟩ := text_cancel (fun x hx => hn x hx) hp h
  exact ⟨h1, h2, h4, h3⟩

/-- Two terms printed with the same options have the same text only if they have the same coefficient, factors and operator. -/
theorem C84_different_terms (limit : ℚ → Nat → ℚ) (hlim : ClosestFraction limit) (dollar permute delimiter backslash : Bool)
    (ts ts' : List Tensor) (op op' : SqOp) (c c' : ℚ) (t t' : Term) (ht : Term.make ts op c = .ok t) (ht' : Term.make ts' op' c' = .ok t')
    (hop : op.Constructed) (hop' : op'.Constructed) (hd : t.diag = ∅) (hd' : t'.diag = ∅)
    (hden : c.den * (op.upper.list.length.factorial * op.lower.list.length.factorial) ≤ 1000000000)
    (hden' : c'.den * (op'.upper.list.length.factorial * op'.lower.list.length.factorial) ≤ 1000000000)
    (hn : ∀ x ∈ ts ++ ts', '^' ∉ x.name ∧ ' ' ∉ x.name ∧ x.name ≠ ['a'] ∧ x.name ≠ [])
    (h : t.latex limit dollar permute delimiter backslash = t'.latex limit dollar permute delimiter backslash) :
    c = c' ∧ op.upper.list = op'.upper.list ∧ op.lower.list = op'.lower.list ∧
      t.tensors.map (fun x => (x.name, x.upper.list, x.lower.list)) = t'.tensors.map fun x => (x.name, x.upper.list, x.lower.list) := by
  obtain ⟨-, -, -, m4⟩ := Term.make_ok.1 ht
  obtain ⟨-, -, -, m4'⟩ := Term.make_ok.1 ht'
  have hco : t.coeff = c := by rw [m4]
  have hco' : t'.coeff = c' := by rw [m4']
  have hsq : t.sqOp = op := by rw [m4]
  have hsq' : t'.sqOp = op' := by rw [m4']
  have hperm : t.tensors.Perm ts := by rw [m4]; exact sortTensors_perm ts
  have hperm' : t'.tensors.Perm ts' := by rw [m4']; exact sortTensors_perm ts'
  have hN : ∀ op : SqOp, 0 < op.upper.list.length.factorial * op.lower.list.length.factorial :=
    fun op => Nat.mul_pos (Nat.factorial_pos _) (Nat.factorial_pos _)
  have hnames : ∀ x ∈ t.tensors ++ t'.tensors, ReadableName x := fun x hx => hn x (by
    rcases List.mem_append.1 hx with hx | hx
    · exact List.mem_append_left _ (hperm.mem_iff.1 hx)
    · exact List.mem_append_right _ (hperm'.mem_iff.1 hx))
  cases permute with
  | true =>
    obtain ⟨n, perm, opText, F, h1, hF, h2, h3⟩ := latex_printed ht hop hd
    obtain ⟨n', perm', opText', F', h1', hF', h2', h3'⟩ := latex_printed ht' hop' hd'
    rw [latex_text limit hlim t dollar true delimiter backslash (by rw [if_pos rfl]; exact h1) F hF.coeff
        (by rw [hF.coeff, hco]; exact small_den hF.pos hF.dvd (hN _) hden) hF.factors h2 h3,
      latex_text limit hlim t' dollar true delimiter backslash (by rw [if_pos rfl]; exact h1') F' hF'.coeff
        (by rw [hF'.coeff, hco']; exact small_den hF'.pos hF'.dvd (hN _) hden') hF'.factors h2' h3'] at h
    injection h with h
    obtain ⟨e1, e2, e3, e4⟩ := text_cancel (by rw [hF.factors, hF'.factors]; exact hnames)
      (fun p hp => (List.mem_append.1 hp).elim (hF.groups p) (hF'.groups p)) (decorated_cancel h)
    have hnn : n = n' := by rw [hF.count, hF'.count, e2]
    refine ⟨?_, ?_⟩
    · rw [hF.coeff, hF'.coeff, hco, hco', hnn] at e1
      have : (n' : ℚ) ≠ 0 := by exact_mod_cast hF'.pos.ne'
      rwa [div_left_inj' this] at e1
    · rw [hF.factors, hF'.factors] at e3
      rw [hF.opLabels, hF'.opLabels] at e4
      have : op.upper.list = op'.upper.list ∧ op.lower.list = op'.lower.list := by
        split at e4 <;> split at e4
        · rename_i h h'; rw [h.1, h.2, h'.1, h'.2]; exact ⟨rfl, rfl⟩
        · cases e4
        · cases e4
        · injection e4 with e4; exact Prod.mk.injEq _ _ _ _ ▸ e4
      exact ⟨this.1, this.2, e3⟩
  | false =>
    have hd1 : c.den ≤ 1000000000 := le_trans (Nat.le_mul_of_pos_right _ (hN op)) hden
    have hd2 : c'.den ≤ 1000000000 := le_trans (Nat.le_mul_of_pos_right _ (hN op')) hden'
    have hop1 : ∀ x : SqOp, (if SqOp.latex x ≠ [] then ' ' :: SqOp.latex x else SqOp.latex x) =
        match some (x.upper.list, x.lower.list) with | none => [] | some (u, l) => [' ', 'a'] ++ scriptsText u l := by
      intro x
      rw [if_pos (by simp [SqOp.latex])]; exact (opText_eq x).symm
    rw [latex_text limit hlim t dollar false delimiter backslash (n := 1) (perm := []) (op := SqOp.latex op) (by rw [hsq]; rfl)
        ⟨c, [], t.tensors, some (op.upper.list, op.lower.list)⟩ (by simp [hco]) hd1 rfl rfl (hop1 op),
      latex_text limit hlim t' dollar false delimiter backslash (n := 1) (perm := []) (op := SqOp.latex op') (by rw [hsq']; rfl)
        ⟨c', [], t'.tensors, some (op'.upper.list, op'.lower.list)⟩ (by simp [hco']) hd2 rfl rfl (hop1 op')] at h
    injection h with h
    obtain ⟨e1, -, e3, e4⟩ := text_cancel (F := ⟨c, [], t.tensors, some (op.upper.list, op.lower.list)⟩)
      (F' := ⟨c', [], t'.tensors, some (op'.upper.list, op'.lower.list)⟩) hnames (by simp) (decorated_cancel h)
    simp only [Option.some.injEq, Prod.mk.injEq] at e4
    exact ⟨e1, e4.1, e4.2, e3⟩

/-! ### print_terms_latex -/

theorem latexLines_eq {limit : ℚ → Nat → ℚ} {row : Term → PyStr} : ∀ {l : List Term}, l ≠ [] →
    (∀ t ∈ l, ∀ b, t.latex limit false true true b = .ok (decorated false b (row t))) →
    latexLines limit l = .ok (separated [' ', '\\', '\\', '\n'] (l.map row) ++ ['\n'])
  | [], h, _ => absurd rfl h
  | [t], _, h => by
    unfold latexLines
    simp [h t (by simp), latexLines, separated, decorated, bind, Except.bind, pure, Except.pure]
  | t :: u :: l, _, h => by
    have ih := latexLines_eq (l := u :: l) (by simp) fun x hx => h x (List.mem_cons_of_mem _ hx)
    rw [latexLines]
    simp only [h t (by simp), ih, bind, Except.bind, pure, Except.pure]
    simp [separated, decorated]

theorem flat_flatten (out : Buckets) : (out.map fun e => e.2.map Prod.snd).flatten.flatten = out.flat.flatMap Prod.snd := by
  unfold Buckets.flat
  rw [List.flatMap_def, List.map_flatMap, List.flatMap_def]
  simp only [List.map_map, Function.comp_def]

/-- What `print_terms_latex` writes: every term once; one `align` environment for all terms with the same spaces of open labels; in it, the
rows of the terms with the same `P` are separated by `\\`. -/
theorem C84_print (limit : ℚ → Nat → ℚ) (hlim : ClosestFraction limit) (ty : IType) (hty : ty.isAntisym = true) (terms : List Term)
    (h : ∀ t ∈ terms, ∃ ts op c, Term.make ts op c = .ok t ∧ op.Constructed ∧ op.upper.ty = ty ∧ t.diag = ∅ ∧
      c.den * (op.upper.list.length.factorial * op.lower.list.length.factorial) ≤ 1000000000) :
    ∃ (row : Term → PyStr) (blocks : List (List (List Term))), (∀ t ∈ terms, t.latex limit false true true false = .ok (row t)) ∧
      printTermsLatex limit terms = .ok (blocks.map fun b => ['\\', 'b', 'e', 'g', 'i', 'n', '{', 'a', 'l', 'i', 'g', 'n', '}', '\n'] ++
        (b.map fun rows => separated [' ', '\\', '\\', '\n'] (rows.map row) ++ ['\n']).flatten ++
        ['\\', 'e', 'n', 'd', '{', 'a', 'l', 'i', 'g', 'n', '}', '\n', '\n']).flatten ∧
      blocks.flatten.flatten.Perm terms ∧
      (∀ b ∈ blocks, b ≠ [] ∧ (∀ rows ∈ b, rows ≠ []) ∧ ∀ t ∈ b.flatten, ∀ u ∈ b.flatten,
        (t.sqOp.lower.list ++ t.sqOp.upper.list).map Index.space = (u.sqOp.lower.list ++ u.sqOp.upper.list).map Index.space) ∧
      (blocks.Pairwise fun b b' => ∀ t ∈ b.flatten, ∀ u ∈ b'.flatten,
        (t.sqOp.lower.list ++ t.sqOp.upper.list).map Index.space ≠ (u.sqOp.lower.list ++ u.sqOp.upper.list).map Index.space) ∧
      ∀ b ∈ blocks, (∀ rows ∈ b, ∀ t ∈ rows, ∀ u ∈ rows, t.bucketKey = u.bucketKey) ∧
        b.Pairwise fun rows rows' => ∀ t ∈ rows, ∀ u ∈ rows', t.bucketKey ≠ u.bucketKey := by
  have hrow : ∀ t ∈ terms, ∃ s, ∀ b, t.latex limit false true true b = .ok (decorated false b s) := by
    intro t ht
    obtain ⟨ts, op, c, h1, h2, h3, h4, h5⟩ := h t ht
    obtain ⟨n, perm, opText, F, g1, hF, g2, g3⟩ := latex_printed h1 h2 h4
    have hco : t.coeff = c := by obtain ⟨-, -, -, m4⟩ := Term.make_ok.1 h1; rw [m4]
    exact ⟨F.text true, fun b => latex_text limit hlim t false true true b (by rw [if_pos rfl]; exact g1) F hF.coeff
      (by rw [hF.coeff, hco]; exact small_den hF.pos hF.dvd (Nat.mul_pos (Nat.factorial_pos _) (Nat.factorial_pos _)) h5) hF.factors g2 g3⟩
  choose! row hrow using hrow
  obtain ⟨out, hout⟩ := C58_total ty hty terms fun t ht => by
    obtain ⟨ts, op, c, h1, h2, h3, h4, -⟩ := h t ht
    exact ⟨ts, op, c, h1, h2, h3, h4⟩
  obtain ⟨p1, p2, p3, p4⟩ := C58_partition terms out hout
  obtain ⟨f1, f2⟩ := categorize_flat hout
  have hmem : ∀ e ∈ out, ∀ f ∈ e.2, ∀ t ∈ f.2, t ∈ terms ∧ t.bucketKey = .ok (e.1, f.1) := fun e he f hf t ht =>
    (f2 _ (Buckets.mem_flat.2 ⟨e, he, f, hf, rfl⟩)).2 t ht
  have hkey : ∀ (t : Term) sp perms, t.bucketKey = .ok (sp, perms) → sp = (t.sqOp.lower.list ++ t.sqOp.upper.list).map Index.space := by
    intro t sp perms hk
    unfold Term.bucketKey at hk
    obtain ⟨r, -, hr⟩ := bind_ok hk
    injection hr with hr
    injection hr with hr
    exact hr.symm
  have hsp : ∀ e ∈ out, ∀ t ∈ (e.2.map Prod.snd).flatten, (t.sqOp.lower.list ++ t.sqOp.upper.list).map Index.space = e.1 := by
    intro e he t ht
    obtain ⟨l, hl, ht⟩ := List.mem_flatten.1 ht
    obtain ⟨f, hf, rfl⟩ := List.mem_map.1 hl
    exact (hkey t _ _ (hmem e he f hf t ht).2).symm
  refine ⟨row, out.map fun e => e.2.map Prod.snd, fun t ht => hrow t ht false, ?_, ?_, ?_, ?_, ?_⟩
  · unfold printTermsLatex
    rw [hout]
    have hblocks : out.mapM (fun e => latexBlock limit (e.2.map Prod.snd)) = Except.ok (out.map fun e =>
        ['\\', 'b', 'e', 'g', 'i', 'n', '{', 'a', 'l', 'i', 'g', 'n', '}', '\n'] ++
          ((e.2.map Prod.snd).map fun rows => separated [' ', '\\', '\\', '\n'] (rows.map row) ++ ['\n']).flatten ++
          ['\\', 'e', 'n', 'd', '{', 'a', 'l', 'i', 'g', 'n', '}', '\n', '\n']) := by
      refine mapM_ok_of_forall fun e he => ?_
      unfold latexBlock
      rw [mapM_ok_of_forall (f := fun rows : List Term => separated [' ', '\\', '\\', '\n'] (rows.map row) ++ ['\n'])]
      · rfl
      · intro l hl
        obtain ⟨f, hf, rfl⟩ := List.mem_map.1 hl
        exact latexLines_eq ((p3 e he).2 f hf).1 fun t ht => hrow t (hmem e he f hf t ht).1
    show (do let bs ← List.mapM (fun e : List Space × Dict (List (List (List Index))) (List Term) => latexBlock limit (e.2.map Prod.snd)) out; pure bs.flatten) = _
    rw [hblocks, List.map_map]
    rfl
  · refine List.Perm.trans (List.Perm.of_eq ?_) f1
    exact flat_flatten out
  · intro b hb
    obtain ⟨e, he, rfl⟩ := List.mem_map.1 hb
    refine ⟨?_, ?_, fun t ht u hu => by rw [hsp e he t ht, hsp e he u hu]⟩
    · intro h0; exact (p3 e he).1 (List.map_eq_nil_iff.1 h0)
    · intro l hl
      obtain ⟨f, hf, rfl⟩ := List.mem_map.1 hl
      exact ((p3 e he).2 f hf).1
  · rw [List.pairwise_map]
    have hn := p1
    rw [List.Nodup, List.pairwise_map] at hn
    refine hn.imp_of_mem fun {e e'} he he' hne t ht u hu => ?_
    rw [hsp e he t ht, hsp e' he' u hu]
    exact hne
  · intro b hb
    obtain ⟨e, he, rfl⟩ := List.mem_map.1 hb
    refine ⟨?_, ?_⟩
    · intro l hl t ht u hu
      obtain ⟨f, hf, rfl⟩ := List.mem_map.1 hl
      rw [(hmem e he f hf t ht).2, (hmem e he f hf u hu).2]
    · rw [List.pairwise_map]
      have hn := p2 e he
      rw [List.Nodup, List.pairwise_map] at hn
      refine hn.imp_of_mem fun {f f'} hf hf' hne t ht u hu => ?_
      rw [(hmem e he f hf t ht).2, (hmem e he f' hf' u hu).2]
      intro heq
      injection heq with heq
      injection heq with _ heq
      exact hne heq

/-- If the terms with the same spaces of open labels all have the same `P`, every `align` environment is well formed: its rows are separated
by `\\`.  (Missing: the general case, see `C84_violation_rows`.) -/
theorem C84_print_partial (limit : ℚ → Nat → ℚ) (hlim : ClosestFraction limit) (ty : IType) (hty : ty.isAntisym = true) (terms : List Term)
    (h : ∀ t ∈ terms, ∃ ts op c, Term.make ts op c = .ok t ∧ op.Constructed ∧ op.upper.ty = ty ∧ t.diag = ∅ ∧
      c.den * (op.upper.list.length.factorial * op.lower.list.length.factorial) ≤ 1000000000)
    (hone : ∀ t ∈ terms, ∀ u ∈ terms, (t.sqOp.lower.list ++ t.sqOp.upper.list).map Index.space =
      (u.sqOp.lower.list ++ u.sqOp.upper.list).map Index.space → t.bucketKey = u.bucketKey) :
    ∃ (row : Term → PyStr) (blocks : List (List Term)), (∀ t ∈ terms, t.latex limit false true true false = .ok (row t)) ∧
      printTermsLatex limit terms = .ok (blocks.map fun b => alignText (b.map row)).flatten ∧ blocks.flatten.Perm terms ∧
      (∀ b ∈ blocks, b ≠ [] ∧ ∀ t ∈ b, ∀ u ∈ b,
        (t.sqOp.lower.list ++ t.sqOp.upper.list).map Index.space = (u.sqOp.lower.list ++ u.sqOp.upper.list).map Index.space) ∧
      blocks.Pairwise fun b b' => ∀ t ∈ b, ∀ u ∈ b',
        (t.sqOp.lower.list ++ t.sqOp.upper.list).map Index.space ≠ (u.sqOp.lower.list ++ u.sqOp.upper.list).map Index.space := by
  obtain ⟨row, blocks, h1, h2, h3, h4, h5, h6⟩ := C84_print limit hlim ty hty terms h
  have single : ∀ b ∈ blocks, b = [b.flatten] := by
    intro b hb
    obtain ⟨b1, b2, b3⟩ := h4 b hb
    match b, b1 with
    | [rows], _ => simp
    | r1 :: r2 :: rest, _ =>
      exfalso
      obtain ⟨t, ht⟩ := List.exists_mem_of_ne_nil _ (b2 r1 (by simp))
      obtain ⟨u, hu⟩ := List.exists_mem_of_ne_nil _ (b2 r2 (by simp))
      have mt : t ∈ (r1 :: r2 :: rest).flatten := List.mem_flatten.2 ⟨r1, by simp, ht⟩
      have mu : u ∈ (r1 :: r2 :: rest).flatten := List.mem_flatten.2 ⟨r2, by simp, hu⟩
      have inT : ∀ x ∈ (r1 :: r2 :: rest).flatten, x ∈ terms := fun x hx =>
        h3.mem_iff.1 (by rw [List.flatten_flatten]; exact List.mem_flatten.2 ⟨_, List.mem_map.2 ⟨_, hb, rfl⟩, hx⟩)
      exact (List.pairwise_cons.1 (h6 _ hb).2).1 r2 (by simp) t ht u hu (hone t (inT t mt) u (inT u mu) (b3 t mt u mu))
  refine ⟨row, blocks.map List.flatten, h1, ?_, ?_, ?_, ?_⟩
  · rw [h2, List.map_map]
    congr 2
    refine List.map_congr_left fun b hb => ?_
    have e := single b hb
    simp only [Function.comp_apply, alignText]
    conv_lhs => rw [e]
    simp
  · rw [← List.flatten_flatten]; exact h3
  · intro b hb
    obtain ⟨b', hb', rfl⟩ := List.mem_map.1 hb
    obtain ⟨b1, b2, b3⟩ := h4 b' hb'
    refine ⟨?_, b3⟩
    obtain ⟨r, hr⟩ := List.exists_mem_of_ne_nil _ b1
    obtain ⟨t, ht⟩ := List.exists_mem_of_ne_nil _ (b2 r hr)
    exact List.ne_nil_of_mem (List.mem_flatten.2 ⟨r, hr, ht⟩)
  · rw [List.pairwise_map]; exact h5

/-- A term with permutations, and its text. -/
theorem C84_example : ∃ t, Term.make [soTensor .tensor 'X' 0 [lab .g 1] [lab .a 0], soTensor .tensor 'Y' 1 [lab .g 2] [lab .a 1]]
      (soOp [lab .a 0, lab .a 1] [lab .g 1, lab .g 2]) 1 = .ok t ∧ t.diag = ∅ ∧ (soOp [lab .a 0, lab .a 1] [lab .g 1, lab .g 2]).Constructed ∧
    (t.latex (fun x _ => x) false true true true).map String.ofList = .ok
      "1/4 & {\\cal P} ( a_{0} / a_{1} ) {\\cal P} ( g_{1} / g_{2} ) X^{ g_{1} }_{ a_{0} } Y^{ g_{2} }_{ a_{1} } a^{ a_{0} a_{1} }_{ g_{1} g_{2} } \\\\" := by
  refine ⟨_, rfl, by decide +kernel, ⟨rfl, rfl, rfl⟩, ?_⟩
  decide +kernel

/-- Two terms of one block with different `P` are printed on one row of the `align` environment: there is no `\\` between them. -/
theorem C84_violation_rows : ∃ t1 t2,
    Term.make [soTensor .tensor 'X' 0 [] [lab .a 0], soTensor .tensor 'Y' 1 [] [lab .a 1]] (soOp [lab .a 0, lab .a 1] []) 1 = .ok t1 ∧
    Term.make [soTensor .tensor 'Z' 0 [] [lab .a 0, lab .a 1]] (soOp [lab .a 0, lab .a 1] []) 1 = .ok t2 ∧ t1.diag = ∅ ∧ t2.diag = ∅ ∧
    (printTermsLatex (fun x _ => x) [t1, t2]).map String.ofList = .ok
      "\\begin{align}\n1 & Z^{  }_{ a_{0} a_{1} } a^{ a_{0} a_{1} }_{  }\n1/2 & {\\cal P} ( a_{0} / a_{1} ) X^{  }_{ a_{0} } Y^{  }_{ a_{1} } a^{ a_{0} a_{1} }_{  }\n\\end{align}\n\n" := by
  refine ⟨_, _, rfl, rfl, by decide +kernel, by decide +kernel, ?_⟩
  decide +kernel

end Dsrg
