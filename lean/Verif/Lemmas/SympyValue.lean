import Verif.Lemmas.Sympy

/-!
The value of a term is unchanged along the symmetries allowed by the contract of SymPy.
-/

namespace Dsrg

theorem look_of_lt {D : List Index} {n : Nat} (h : n / 2 < D.length) : look D n = D[n / 2] := by
  rw [look, List.getD_eq_getElem?_getD, List.getElem?_eq_getElem h, Option.getD_some]

/-- The renaming of two summation names. -/
def renamePair (i j n : Nat) : Nat := Equiv.swap (2 * i) (2 * j) (Equiv.swap (2 * i + 1) (2 * j + 1) n)

theorem renamePair_cases (i j n : Nat) : (n / 2 = i ∧ renamePair i j n / 2 = j) ∨ (n / 2 = j ∧ renamePair i j n / 2 = i) ∨
    (n / 2 ≠ i ∧ n / 2 ≠ j ∧ renamePair i j n = n) := by
  unfold renamePair
  rw [Equiv.swap_apply_def (2 * i + 1)]
  split_ifs with h1 h2
  · rw [Equiv.swap_apply_of_ne_of_ne (by omega) (by omega)]; left; omega
  · rw [Equiv.swap_apply_of_ne_of_ne (by omega) (by omega)]; right; left; omega
  · rw [Equiv.swap_apply_def]
    split_ifs with h3 h4
    · left; omega
    · right; left; omega
    · right; right; omega

theorem look_renamePair {D : List Index} (hD : D.Nodup) {i j n : Nat} (hi : i < D.length) (hj : j < D.length) (hn : n < 2 * D.length) :
    look D (renamePair i j n) = Equiv.swap D[i] D[j] (look D n) := by
  have hn2 : n / 2 < D.length := by omega
  rcases renamePair_cases i j n with ⟨h1, h2⟩ | ⟨h1, h2⟩ | ⟨h1, h2, h3⟩
  · rw [look_of_lt hn2, look_of_lt (by omega)]
    simp only [h1, h2, Equiv.swap_apply_left]
  · rw [look_of_lt hn2, look_of_lt (by omega)]
    simp only [h1, h2, Equiv.swap_apply_right]
  · rw [h3, look_of_lt hn2, Equiv.swap_apply_of_ne_of_ne]
    · intro h; exact h1 ((List.Nodup.getElem_inj_iff hD).1 h)
    · intro h; exact h2 ((List.Nodup.getElem_inj_iff hD).1 h)

theorem look_swap_ends (D : List Index) (i n : Nat) : look D (Equiv.swap (2 * i) (2 * i + 1) n) = look D n := by
  unfold look
  rw [Equiv.swap_apply_def]
  split_ifs with h1 h2
  · rw [show (2 * i + 1) / 2 = n / 2 by omega]
  · rw [show (2 * i) / 2 = n / 2 by omega]
  · rfl

section
variable {O R M : Type} [Fintype O] [DecidableEq O] [Inhabited O] [CommRing R] [Algebra ℚ R] [AddCommGroup M] [Module R M]

theorem opTerm (I : Interp O R M) (ts : List Tensor) (op : SqOp) (b A : List Index) (hb : b.length = op.size) (σ : Index → O) :
    I.pval σ (refillAll ts ((b ++ A).drop op.size)) • I.opval σ (op.refill (b ++ A)) =
      I.pval σ (refillAll ts A) • I.opval σ (op.refill b) := by
  rw [op.refill_append b A hb, List.drop_append_of_le_length (by omega), ← hb, List.drop_length, List.nil_append]

theorem tensorTerm (I : Interp O R M) (ts₁ ts₂ : List Tensor) (t : Tensor) (op : SqOp) (B₀ B₁ b A : List Index) (h0 : B₀.length = op.size)
    (h1 : B₁.length = slotCount ts₁) (h2 : b.length = t.pair.size) (σ : Index → O) :
    I.pval σ (refillAll (ts₁ ++ t :: ts₂) ((B₀ ++ (B₁ ++ (b ++ A))).drop op.size)) • I.opval σ (op.refill (B₀ ++ (B₁ ++ (b ++ A)))) =
      (I.pval σ (refillAll ts₁ B₁) * (I.tval σ (t.refill b) * I.pval σ (refillAll ts₂ A))) • I.opval σ (op.refill B₀) := by
  rw [opTerm I _ op B₀ _ h0, refillAll_append _ _ _ _ h1, refillAll_cons _ _ _ _ h2, I.pval_append, I.pval_cons]

/-- One symmetry. -/
theorem symStep_value {ts : List Tensor} {op : SqOp} {hermitian anti : Bool} {v : List SlotGroup} {D : List Index}
    (hv : bsgsList ts op hermitian = .ok v) (hD : D.Nodup) (hty : ∀ t ∈ ts, t.upper.ty.isAntisym = anti) (hop : op.upper.ty.isAntisym = anti)
    (hbal : op.nUpper = op.nLower) (hkind : ∀ x ∈ ts, ∀ y ∈ ts, x.name = y.name → x.cls = y.cls) (I : Interp O R M) (orb : Orbitals O)
    (hI : I.SlotSymmetric anti hermitian) {names : List Nat} {s s' : Nat} (hlen : names.length = op.size + slotCount ts) {y : List Nat}
    (hstep : SymStep (dummyRanges 0 (spaceGroups D)) v (names ++ [s, s']) y) :
    ∃ (names' : List Nat) (flip : Bool), y = names' ++ (if flip then [s', s] else [s, s']) ∧ names'.length = op.size + slotCount ts ∧
      ((∀ n ∈ names', n < 2 * D.length) → ∀ n ∈ names, n < 2 * D.length) ∧
      ((∀ n ∈ names, n < 2 * D.length) →
        I.fillValue orb ts op (names'.map (look D)) = (if flip then -1 else 1 : ℤ) • I.fillValue orb ts op (names.map (look D))) := by
  have hbalT := (bsgsList_ok hv).1
  generalize hx : names ++ [s, s'] = x at hstep
  cases hstep with
  | slots e k p before b b' after s₀ s₀' r r' hat hp hb hperm =>
    obtain ⟨rfl, rfl, rfl⟩ := append_two_inj hx
    have finish : ∀ flip : Bool, b'.Perm b → (∀ σ : Index → O,
        I.pval σ (refillAll ts (((before ++ b' ++ after).map (look D)).drop op.size)) • I.opval σ (op.refill ((before ++ b' ++ after).map (look D))) =
          (if flip then -1 else 1 : ℤ) • (I.pval σ (refillAll ts (((before ++ b ++ after).map (look D)).drop op.size)) •
            I.opval σ (op.refill ((before ++ b ++ after).map (look D))))) →
        [r, r'] = (if flip then [s', s] else [s, s']) →
        ∃ (names' : List Nat) (flip : Bool), before ++ b' ++ after ++ [r, r'] = names' ++ (if flip then [s', s] else [s, s']) ∧
          names'.length = op.size + slotCount ts ∧
          ((∀ n ∈ names', n < 2 * D.length) → ∀ n ∈ before ++ b ++ after, n < 2 * D.length) ∧
          ((∀ n ∈ before ++ b ++ after, n < 2 * D.length) → I.fillValue orb ts op (names'.map (look D)) =
            (if flip then -1 else 1 : ℤ) • I.fillValue orb ts op ((before ++ b ++ after).map (look D))) := by
      intro flip hpm hval hr
      have hpm' : (before ++ b' ++ after).Perm (before ++ b ++ after) := (List.Perm.append_left _ hpm).append_right _
      refine ⟨before ++ b' ++ after, flip, by rw [hr], hpm'.length_eq.trans hlen, ?_, ?_⟩
      · intro h n hn; exact h n (hpm'.mem_iff.2 hn)
      · intro _
        exact I.fillValue_congr orb ts op _ _ (by simpa using hlen) (hpm'.map _) _ hval
    rcases entry_cases hv hat with ⟨-, hoff, -, -, hsz, hg⟩ | ⟨ts₁, t, ts₂, t₀, hts, hoff, hsz, ht₀, hg, hn₀, -⟩
    · have hb0 : before = [] := List.eq_nil_of_length_eq_zero hoff
      subst hb0
      rw [hsz] at hb
      unfold IndicesPair.opBsgs at hg
      have hb2 : b.length = op.nLower + op.nLower := by rw [hb]; unfold IndicesPair.size; omega
      have hall : (r = s ∧ r' = s' ∧ b' = b) ∨ (anti = true ∧ ((r = s ∧ r' = s' ∧ BlockMove true false op.nLower b b' false) ∨
          (r = s' ∧ r' = s ∧ BlockMove true false op.nLower b b' true))) := by
        split_ifs at hg with ha
        · right
          rw [hop] at ha
          refine ⟨ha, ?_⟩
          rcases bsgs_move hg hbal rfl hp hb2 hperm with h | ⟨-, h⟩
          · exact absurd h.1 (by decide)
          · rw [hop, ha] at h; exact h
        · left
          rcases bsgs_move hg hbal rfl hp hb2 hperm with h | h
          · exact h.2
          · exact absurd h.1 (by decide)
      have opFinish : ∀ flip : Bool, anti = true → BlockMove true false op.nLower b b' flip → [r, r'] = (if flip then [s', s] else [s, s']) → _ :=
        fun (flip : Bool) ha hm hr => finish flip hm.perm (by
          intro σ
          rw [List.nil_append, List.nil_append, List.map_append, List.map_append, opTerm I ts op _ _ (by rw [List.length_map, hm.perm.length_eq]; exact hb),
            opTerm I ts op _ _ (by simpa using hb),
            I.opval_move (hI.1 ha) hm op hbal rfl, smul_comm]) hr
      rcases hall with ⟨rfl, rfl, rfl⟩ | ⟨ha, ⟨rfl, rfl, hm⟩ | ⟨rfl, rfl, hm⟩⟩
      · exact finish false (.refl _) (by intro σ; simp) rfl
      · exact opFinish false ha hm rfl
      · exact opFinish true ha hm rfl
    · have ht : t ∈ ts := by rw [hts]; simp
      have hn := hbalT t ht
      rw [hsz] at hb
      have hb2 : b.length = t.pair.nLower + t.pair.nLower := by rw [hb]; unfold IndicesPair.size; omega
      have hall := bsgs_move hg ((hbalT t₀ ht₀).trans hn₀) hn₀ hp hb2 hperm
      have hty₀ : t₀.pair.upper.ty.isAntisym = anti := hty t₀ ht₀
      rw [hty₀] at hall
      obtain ⟨B₀, B₁, rfl, hB₀⟩ : ∃ B₀ B₁, before = B₀ ++ B₁ ∧ B₀.length = op.size :=
        ⟨before.take op.size, before.drop op.size, (List.take_append_drop _ _).symm, by simp; omega⟩
      have hB₁ : B₁.length = slotCount ts₁ := by rw [List.length_append] at hoff; omega
      have tFinish : ∀ flip : Bool, BlockMove anti hermitian t.pair.nLower b b' flip → [r, r'] = (if flip then [s', s] else [s, s']) → _ :=
        fun (flip : Bool) hm hr => finish flip hm.perm (by
          intro σ
          have e : ∀ c : List Nat, (B₀ ++ B₁ ++ c ++ after).map (look D) =
              B₀.map (look D) ++ (B₁.map (look D) ++ (c.map (look D) ++ after.map (look D))) := by intro c; simp
          rw [e, e, hts]
          rw [tensorTerm I ts₁ ts₂ t op _ _ _ _ (by simpa using hB₀) (by simpa using hB₁)
              (by rw [List.length_map, hm.perm.length_eq]; exact hb),
            tensorTerm I ts₁ ts₂ t op _ _ _ _ (by simpa using hB₀) (by simpa using hB₁) (by simpa using hb),
            I.tval_move hI hm t hn rfl, smul_mul_assoc, mul_smul_comm, smul_assoc]) hr
      rcases hall with h | ⟨-, ⟨rfl, rfl, hm⟩ | ⟨rfl, rfl, hm⟩⟩
      · exact absurd h.1 (by decide)
      · exact tFinish false hm rfl
      · exact tFinish true hm rfl
  | exchange e k before b b' after s₀ s₀' hat hk hb hb' =>
    obtain ⟨rfl, rfl, rfl⟩ := append_two_inj hx
    have hpm : (before ++ b' ++ b ++ after).Perm (before ++ b ++ b' ++ after) := by
      apply List.Perm.append_right
      rw [List.append_assoc, List.append_assoc]
      exact List.Perm.append_left _ List.perm_append_comm
    refine ⟨before ++ b' ++ b ++ after, false, rfl, hpm.length_eq.trans hlen, fun h n hn => h n (hpm.mem_iff.2 hn), fun _ => ?_⟩
    rcases entry_cases hv hat with ⟨-, -, -, hc, -⟩ | ⟨ts₁, t, ts₂, t₀, hts, hoff, hsz, ht₀, hg, hn₀, hnext⟩
    · omega
    · obtain ⟨t', ts₃, rfl, hname, hnl⟩ := hnext hk
      have ht : t ∈ ts := by rw [hts]; simp
      have ht' : t' ∈ ts := by rw [hts]; simp
      have hn := hbalT t ht
      have hn' := hbalT t' ht'
      have hcls := hkind t' ht' t ht hname
      rw [hsz] at hb hb'
      have hsz' : t'.pair.size = t.pair.size := by unfold IndicesPair.size; omega
      obtain ⟨B₀, B₁, rfl, hB₀⟩ : ∃ B₀ B₁, before = B₀ ++ B₁ ∧ B₀.length = op.size :=
        ⟨before.take op.size, before.drop op.size, (List.take_append_drop _ _).symm, by simp; omega⟩
      have hB₁ : B₁.length = slotCount ts₁ := by rw [List.length_append] at hoff; omega
      apply I.fillValue_congr orb ts op _ _ (by simpa using hlen) (hpm.map _)
      intro σ
      have e : ∀ c c' : List Nat, (B₀ ++ B₁ ++ c ++ c' ++ after).map (look D) =
          B₀.map (look D) ++ (B₁.map (look D) ++ (c.map (look D) ++ (c'.map (look D) ++ after.map (look D)))) := by intro c c'; simp
      have htv : ∀ c : List Index, I.tval σ (t'.refill c) = I.tval σ (t.refill c) := by
        intro c
        unfold Interp.tval Tensor.refill Tensor.upper Tensor.lower
        simp only [hname, hcls, hnl, hn, hn']
      rw [e, e, hts]
      rw [tensorTerm I ts₁ _ t op _ _ _ _ (by simpa using hB₀) (by simpa using hB₁) (by simpa using hb'),
        tensorTerm I ts₁ _ t op _ _ _ _ (by simpa using hB₀) (by simpa using hB₁) (by simpa using hb)]
      rw [refillAll_cons _ _ _ _ (by rw [hsz']; simpa using hb), refillAll_cons _ _ _ _ (by rw [hsz']; simpa using hb'), I.pval_cons, I.pval_cons,
        htv, htv]
      simp only [Bool.false_eq_true, if_false, one_smul]
      congr 1
      ring
  | ends d i g s₀ s₀' hd h1 h2 =>
    obtain ⟨rfl, rfl, rfl⟩ := append_two_inj hx
    obtain ⟨hi, -, -⟩ := dummy_space hd h1 h2 h1 h2
    refine ⟨names.map (Equiv.swap (2 * i) (2 * i + 1)), false, rfl, by simpa using hlen, ?_, ?_⟩
    · intro h n hn
      have := swap_lt (n := 2 * D.length) (i := 2 * i) (j := 2 * i + 1) (by omega) (by omega) _ (h _ (List.mem_map_of_mem hn))
      rwa [Equiv.swap_apply_self] at this
    · intro _
      rw [List.map_map]
      have : (look D ∘ ⇑(Equiv.swap (2 * i) (2 * i + 1))) = look D := by funext n; exact look_swap_ends D i n
      rw [this]; simp
  | rename d i j g s₀ s₀' hd h1 h2 h3 h4 =>
    obtain ⟨rfl, rfl, rfl⟩ := append_two_inj hx
    obtain ⟨hi, hj, hsp⟩ := dummy_space hd h1 h2 h3 h4
    refine ⟨names.map (renamePair i j), false, rfl, by simpa using hlen, ?_, ?_⟩
    · intro h n hn
      have := h _ (List.mem_map_of_mem hn)
      rcases renamePair_cases i j n with ⟨h1, h2⟩ | ⟨h1, h2⟩ | ⟨h1, h2, h3⟩
      · omega
      · omega
      · rwa [h3] at this
    · intro h
      have e : (names.map (renamePair i j)).map (look D) = (names.map (look D)).map (Equiv.swap D[i] D[j]) := by
        rw [List.map_map, List.map_map]
        apply List.map_congr_left
        intro n hn
        exact look_renamePair hD hi hj (h n hn)
      rw [e, I.fillValue_map orb ts op _ (by simpa using hlen) _ (fun _ _ _ _ e => (Equiv.swap D[i] D[j]).injective e)]
      · simp
      · intro m _
        rw [Equiv.swap_apply_def]
        split_ifs with k1 k2
        · rw [k1, hsp]
        · rw [k2, hsp]
        · rfl

/-- Any number of symmetries. -/
theorem symSteps_value {ts : List Tensor} {op : SqOp} {hermitian anti : Bool} {v : List SlotGroup} {D : List Index}
    (hv : bsgsList ts op hermitian = .ok v) (hD : D.Nodup) (hty : ∀ t ∈ ts, t.upper.ty.isAntisym = anti) (hop : op.upper.ty.isAntisym = anti)
    (hbal : op.nUpper = op.nLower) (hkind : ∀ x ∈ ts, ∀ y ∈ ts, x.name = y.name → x.cls = y.cls) (I : Interp O R M) (orb : Orbitals O)
    (hI : I.SlotSymmetric anti hermitian) {names : List Nat} {s s' : Nat} (hlen : names.length = op.size + slotCount ts) {y : List Nat}
    (hsteps : Relation.ReflTransGen (SymStep (dummyRanges 0 (spaceGroups D)) v) (names ++ [s, s']) y) :
    ∃ (names' : List Nat) (flip : Bool), y = names' ++ (if flip then [s', s] else [s, s']) ∧ names'.length = op.size + slotCount ts ∧
      ((∀ n ∈ names', n < 2 * D.length) → (∀ n ∈ names, n < 2 * D.length) ∧
        I.fillValue orb ts op (names'.map (look D)) = (if flip then -1 else 1 : ℤ) • I.fillValue orb ts op (names.map (look D))) := by
  induction hsteps with
  | refl => exact ⟨names, false, rfl, hlen, fun h => ⟨h, by simp⟩⟩
  | @tail _ z _ hstep ih =>
    obtain ⟨names₁, f₁, rfl, hl₁, hr₁⟩ := ih
    have main : ∃ (names₂ : List Nat) (f₂ : Bool), z = names₂ ++ (if f₂ then (if f₁ then [s, s'] else [s', s]) else (if f₁ then [s', s] else [s, s'])) ∧
        names₂.length = op.size + slotCount ts ∧ ((∀ n ∈ names₂, n < 2 * D.length) → ∀ n ∈ names₁, n < 2 * D.length) ∧
        ((∀ n ∈ names₁, n < 2 * D.length) →
          I.fillValue orb ts op (names₂.map (look D)) = (if f₂ then -1 else 1 : ℤ) • I.fillValue orb ts op (names₁.map (look D))) := by
      cases f₁
      · exact symStep_value hv hD hty hop hbal hkind I orb hI hl₁ hstep
      · exact symStep_value hv hD hty hop hbal hkind I orb hI hl₁ hstep
    obtain ⟨names₂, f₂, rfl, hl₂, h1, h2⟩ := main
    refine ⟨names₂, f₁ ^^ f₂, by cases f₁ <;> cases f₂ <;> rfl, hl₂, fun h => ?_⟩
    obtain ⟨k1, k2⟩ := hr₁ (h1 h)
    refine ⟨k1, ?_⟩
    rw [h2 (h1 h), k2, smul_smul]
    congr 1
    cases f₁ <;> cases f₂ <;> rfl

theorem Interp.value_eq_smul (I : Interp O R M) (orb : Orbitals O) (c : ℚ) (ts : List Tensor) (op : SqOp) :
    I.value orb c ts op = (algebraMap ℚ R c) • I.value orb 1 ts op := by
  unfold Interp.value
  rw [map_one, one_smul]

end

theorem dummyAt_ok {D : List Index} {n : Nat} {i : Index} (h : dummyAt D n = .ok i) : i = look D n ∧ n < 2 * D.length := by
  unfold dummyAt at h
  cases hd : D[n / 2]? with
  | none => rw [hd] at h; simp at h
  | some j =>
    rw [hd] at h
    simp only [Except.ok.injEq] at h
    subst h
    obtain ⟨h1, h2⟩ := List.getElem?_eq_some_iff.1 hd
    exact ⟨by rw [look_of_lt h1, h2], by omega⟩

theorem mapM_dummyAt_ok {D : List Index} {l : List Nat} {r : List Index} (h : l.mapM (dummyAt D) = .ok r) :
    r = l.map (look D) ∧ ∀ n ∈ l, n < 2 * D.length := by
  induction l generalizing r with
  | nil => simp [pure, Except.pure] at h; simp [h]
  | cons a l ih =>
    obtain ⟨b, bs, h1, h2, rfl⟩ := mapM_cons_ok.1 h
    obtain ⟨rfl, h3⟩ := dummyAt_ok h1
    obtain ⟨rfl, h4⟩ := ih h2
    exact ⟨rfl, by simpa using ⟨h3, h4⟩⟩

theorem rebuildOp_ok {D : List Index} {op op' : SqOp} {names : List Nat} (h : rebuildOp D op names = .ok op') :
    op' = op.refill (names.map (look D)) ∧ ∀ n ∈ names.take op.size, n < 2 * D.length := by
  unfold rebuildOp at h
  simp only [bind, Except.bind] at h
  cases h1 : (names.take op.nLower).mapM (dummyAt D) with
  | error e => rw [h1] at h; simp at h
  | ok l =>
  rw [h1] at h
  simp only [] at h
  cases h2 : Indices.make op.upper.ty l with
  | error e => rw [h2] at h; simp at h
  | ok lo =>
  rw [h2] at h
  simp only [] at h
  cases h3 : ((names.drop op.nLower).take op.nUpper).mapM (dummyAt D) with
  | error e => rw [h3] at h; simp at h
  | ok u =>
  rw [h3] at h
  simp only [] at h
  cases h4 : Indices.make op.upper.ty u with
  | error e => rw [h4] at h; simp at h
  | ok up =>
  rw [h4] at h
  simp only [] at h
  obtain ⟨rfl, k1⟩ := mapM_dummyAt_ok h1
  obtain ⟨rfl, k2⟩ := mapM_dummyAt_ok h3
  obtain ⟨rfl, -⟩ := Indices.make_eq h2
  obtain ⟨rfl, -⟩ := Indices.make_eq h4
  obtain ⟨rfl, -⟩ := IndicesPair.make_eq h
  refine ⟨?_, ?_⟩
  · simp [IndicesPair.refill, List.map_take, List.map_drop]
  · intro n hn
    have e : names.take op.size = names.take op.nLower ++ (names.drop op.nLower).take op.nUpper := by
      rw [IndicesPair.size, Nat.add_comm, List.take_add]
    rw [e, List.mem_append] at hn
    exact hn.elim (k1 n) (k2 n)

theorem rebuildTensors_ok {D : List Index} : ∀ {ts ts' : List Tensor} {names : List Nat}, rebuildTensors D ts names = .ok ts' →
    ts' = refillAll ts (names.map (look D)) ∧ ∀ n ∈ names.take (slotCount ts), n < 2 * D.length := by
  intro ts
  induction ts with
  | nil =>
    intro ts' names h
    simp only [rebuildTensors, Except.ok.injEq] at h
    subst h
    exact ⟨rfl, by simp [slotCount]⟩
  | cons t ts ih =>
    intro ts' names h
    rw [rebuildTensors] at h
    simp only [bind, Except.bind] at h
    cases h1 : (names.take t.pair.nLower).mapM (dummyAt D) with
    | error e => rw [h1] at h; simp at h
    | ok l =>
    rw [h1] at h
    simp only [] at h
    cases h2 : Indices.make t.upper.ty l with
    | error e => rw [h2] at h; simp at h
    | ok lo =>
    rw [h2] at h
    simp only [] at h
    cases h3 : ((names.drop t.pair.nLower).take t.pair.nUpper).mapM (dummyAt D) with
    | error e => rw [h3] at h; simp at h
    | ok u =>
    rw [h3] at h
    simp only [] at h
    cases h4 : Indices.make t.upper.ty u with
    | error e => rw [h4] at h; simp at h
    | ok up =>
    rw [h4] at h
    simp only [] at h
    cases h5 : Tensor.make t.cls up lo t.name t.priority with
    | error e => rw [h5] at h; simp at h
    | ok x =>
    rw [h5] at h
    simp only [] at h
    cases h6 : rebuildTensors D ts (names.drop t.pair.size) with
    | error e => rw [h6] at h; simp at h
    | ok xs =>
    rw [h6] at h
    simp only [pure, Except.pure, Except.ok.injEq] at h
    subst h
    obtain ⟨rfl, k1⟩ := mapM_dummyAt_ok h1
    obtain ⟨rfl, k2⟩ := mapM_dummyAt_ok h3
    obtain ⟨rfl, -⟩ := Indices.make_eq h2
    obtain ⟨rfl, -⟩ := Indices.make_eq h4
    obtain ⟨rfl, -⟩ := Tensor.make_eq h5
    obtain ⟨rfl, k3⟩ := ih h6
    refine ⟨?_, ?_⟩
    · rw [refillAll, List.map_drop]
      congr 1
      simp [Tensor.refill, List.map_take, List.map_drop]
    · intro n hn
      have e : names.take (slotCount (t :: ts)) = names.take t.pair.nLower ++ (names.drop t.pair.nLower).take t.pair.nUpper ++
          (names.drop t.pair.size).take (slotCount ts) := by
        rw [slotCount_cons, List.take_add, IndicesPair.size, Nat.add_comm t.pair.nUpper, List.take_add]
      rw [e, List.mem_append, List.mem_append] at hn
      exact hn.elim (fun h => h.elim (k1 n) (k2 n)) (k3 n)

theorem sortedDummies_spec {s : Term} (hs : labelsOf s.tensors s.sqOp ⊆ s.indicesSet) :
    (sortedDummies s.minimalIndices).Nodup ∧
      ∀ m, m ∈ sortedDummies s.minimalIndices ↔ m ∈ (slotLabels s.tensors s.sqOp).map (dictFun s.minimalIndices) := by
  obtain ⟨next, hm, hkeys⟩ := minimalIndices_spec s hs
  have hp : (sortedDummies s.minimalIndices).Perm (s.minimalIndices.map Prod.snd) := List.perm_insertionSort _ _
  refine ⟨hp.nodup_iff.2 hm.vals, ?_⟩
  intro m
  rw [hp.mem_iff, List.mem_map, List.mem_map]
  have hlab : ∀ i, i ∈ slotLabels s.tensors s.sqOp ↔ i ∈ s.minimalIndices.map Prod.fst := by
    intro i; rw [hkeys, mem_labelsOf, (slotLabels_perm _ _).mem_iff]
  constructor
  · rintro ⟨e, he, rfl⟩
    have hk : e.1 ∈ s.minimalIndices.map Prod.fst := List.mem_map_of_mem he
    have h1 := (dictFind_ok hm.keys hk).2
    have h2 := List.inj_on_of_nodup_map hm.keys h1 he rfl
    exact ⟨e.1, (hlab _).2 hk, by rw [← h2]⟩
  · rintro ⟨i, hi, rfl⟩
    exact ⟨_, (dictFind_ok hm.keys ((hlab i).1 hi)).2, rfl⟩

section
variable {O R M : Type} [Fintype O] [DecidableEq O] [Inhabited O] [CommRing R] [Algebra ℚ R] [AddCommGroup M] [Module R M]

/-- What follows simplification in `canonicalize_sympy` preserves the value. -/
theorem Term.sympy_value {canon : List Nat → List (Nat × Nat) → List SlotGroup → Option (List Nat)} (hcanon : CanonContract canon)
    {s r : Term} {hermitian : Bool} (hs : labelsOf s.tensors s.sqOp ⊆ s.indicesSet)
    (hbal : s.sqOp.upper.list.length = s.sqOp.lower.list.length)
    (hkind : ∀ x ∈ s.tensors, ∀ y ∈ s.tensors, x.name = y.name → x.cls = y.cls)
    {names : List Nat} (hnames : slotNames (dictFind s.minimalIndices) (fun m => 2 * (sortedDummies s.minimalIndices).idxOf m)
      (slotLabels s.tensors s.sqOp) = .ok names)
    {v : List SlotGroup} (hv : bsgsList s.tensors s.sqOp hermitian = .ok v)
    (hperm : (names ++ [names.length, names.length + 1]).Perm (List.range (names ++ [names.length, names.length + 1]).length))
    {gc : List Nat} (hgc : canon (names ++ [names.length, names.length + 1]) (dummyRanges 0 (spaceGroups (sortedDummies s.minimalIndices))) v = some gc)
    {op : SqOp} (hop : rebuildOp (sortedDummies s.minimalIndices) s.sqOp gc = .ok op)
    {ts : List Tensor} (hts : rebuildTensors (sortedDummies s.minimalIndices) s.tensors (gc.drop s.sqOp.size) = .ok ts)
    (hr : Term.make ts op ((if (names ++ [names.length, names.length + 1]).getLastD 0 ≠ gc.getLastD 0 then -1 else 1) * s.coeff) = .ok r)
    (I : Interp O R M) (orb : Orbitals O) (hI : I.SlotSymmetric s.sqOp.upper.ty.isAntisym hermitian) :
    I.value orb r.coeff r.tensors r.sqOp = I.value orb s.coeff s.tensors s.sqOp := by
  set D := sortedDummies s.minimalIndices with hDdef
  set f := dictFun s.minimalIndices with hf
  obtain ⟨hD, hDm⟩ := sortedDummies_spec hs
  rw [← hDdef] at hD hDm
  obtain ⟨next, hm, hkeys⟩ := minimalIndices_spec s hs
  have hnl := (slotNames_spec (realizes_dictFind _) _ _ _ hnames).1
  rw [slotLabels_length] at hnl
  obtain ⟨rfl, hop2⟩ := rebuildOp_ok hop
  obtain ⟨rfl, hts2⟩ := rebuildTensors_ok hts
  obtain ⟨hty, -, -, rfl⟩ := Term.make_ok.1 hr
  have htyall : ∀ t ∈ s.tensors, t.upper.ty.isAntisym = s.sqOp.upper.ty.isAntisym := by
    have : ∀ (ts : List Tensor) (L : List Index), (∀ x ∈ refillAll ts L, x.upper.ty = s.sqOp.upper.ty) → ∀ t ∈ ts, t.upper.ty = s.sqOp.upper.ty := by
      intro ts
      induction ts with
      | nil => intro L _ t ht; simp at ht
      | cons x ts ih =>
        intro L h t ht
        rw [refillAll, List.forall_mem_cons] at h
        rcases List.mem_cons.1 ht with rfl | ht
        · exact h.1
        · exact ih _ h.2 t ht
    intro t ht
    rw [this _ _ hty t ht]
  obtain ⟨names', flip, rfl, hl', hval⟩ := symSteps_value hv hD htyall rfl hbal hkind I orb hI hnl (hcanon.reach _ _ _ _ hgc)
  have hsplit : names' = names'.take s.sqOp.size ++ names'.drop s.sqOp.size := (List.take_append_drop _ _).symm
  have htk : (names'.take s.sqOp.size).length = s.sqOp.size := by simp; omega
  have hdl : (names'.drop s.sqOp.size).length = slotCount s.tensors := by simp; omega
  -- all names are in range
  have hrange : ∀ n ∈ names', n < 2 * D.length := by
    intro n hn
    rw [hsplit, List.mem_append] at hn
    rcases hn with hn | hn
    · exact hop2 n (by rw [List.take_append_of_le_length (by omega)]; exact hn)
    · refine hts2 n ?_
      rw [List.drop_append_of_le_length (by omega), List.take_append_of_le_length (by omega), ← hdl, List.take_length]; exact hn
  obtain ⟨hrange0, hval⟩ := hval hrange
  have hnd : names.Nodup := by
    have := hperm.nodup_iff.2 List.nodup_range
    exact (List.nodup_append.1 this).1
  have hlook := slotNames_look (realizes_dictFind _) hD hDm hnames hnd hrange0
  -- the rebuilt factors are those of the decoded names
  have e1 : ∀ junk : List Nat, refillAll s.tensors (((names' ++ junk).drop s.sqOp.size).map (look D)) =
      refillAll s.tensors ((names'.map (look D)).drop s.sqOp.size) := by
    intro junk
    rw [List.drop_append_of_le_length (by omega), List.map_append]
    have := refillAll_append s.tensors [] ((names'.drop s.sqOp.size).map (look D)) (junk.map (look D)) (by simpa using hdl)
    rw [List.append_nil] at this
    rw [this, refillAll, List.append_nil, List.map_drop]
  have e2 : ∀ junk : List Nat, s.sqOp.refill ((names' ++ junk).map (look D)) = s.sqOp.refill (names'.map (look D)) := by
    intro junk
    have e : names' ++ junk = names'.take s.sqOp.size ++ (names'.drop s.sqOp.size ++ junk) := by
      rw [← List.append_assoc, List.take_append_drop]
    have e' : names'.map (look D) = (names'.take s.sqOp.size).map (look D) ++ (names'.drop s.sqOp.size).map (look D) := by
      rw [← List.map_append, List.take_append_drop]
    rw [e, List.map_append, s.sqOp.refill_append _ _ (by simpa using htk), e', s.sqOp.refill_append _ _ (by simpa using htk)]
  simp only []
  rw [I.value_perm orb _ (sortTensors_perm _), I.value_eq_smul, e1, e2]
  change _ • I.fillValue orb s.tensors s.sqOp (names'.map (look D)) = _
  rw [hval, hlook]
  have hfv : I.fillValue orb s.tensors s.sqOp ((slotLabels s.tensors s.sqOp).map f) = I.value orb 1 s.tensors s.sqOp := by
    obtain ⟨h1, h2⟩ := refill_slotLabels f s.tensors s.sqOp
    unfold Interp.fillValue
    rw [h1, h2]
    apply I.value_relabel
    · exact fun i hi j hj e => hm.injOn ((hkeys i).2 hi) ((hkeys j).2 hj) e
    · exact fun i hi => hm.space _ (dictFind_ok hm.keys ((hkeys i).2 hi)).2
  rw [hfv, I.value_eq_smul orb s.coeff]
  have hlast : (names ++ [names.length, names.length + 1]).getLastD 0 = names.length + 1 := by simp [List.getLastD_eq_getLast?]
  rw [hlast]
  cases flip
  · simp [List.getLastD_eq_getLast?]
  · simp [List.getLastD_eq_getLast?]

end

/-! ### The factors after `simplify` -/

theorem downgradeCumulants_keep {core : Bool} {diag : Finset Index} : ∀ (ts : List Tensor) (st : ReplState) (r : ReplState × List Tensor),
    downgradeCumulants core diag st ts = .ok r → ∀ x ∈ r.2, x.cls ≠ .kronecker → x ∈ ts := by
  intro ts
  induction ts with
  | nil =>
    intro st r h
    simp only [downgradeCumulants, pure, Except.pure, Except.ok.injEq] at h
    subst h; simp
  | cons t ts ih =>
    intro st r h
    simp only [downgradeCumulants, bind, Except.bind] at h
    cases hs : downgradeStep core diag st t with
    | error e => rw [hs] at h; simp at h
    | ok q =>
      rw [hs] at h
      simp only [] at h
      cases hr : downgradeCumulants core diag q.1 ts with
      | error e => rw [hr] at h; simp at h
      | ok qs =>
        rw [hr] at h
        simp only [pure, Except.pure, Except.ok.injEq] at h
        subst h
        intro x hx hk
        rcases List.mem_cons.1 hx with rfl | hx
        · have : q.2 = t := by
            unfold downgradeStep at hs
            by_cases hc : t.cls = .cumulant
            · rw [if_pos hc] at hs
              simp only [bind, Except.bind, pure, Except.pure] at hs
              cases hn : t.pair.nBody with
              | error e => rw [hn] at hs; simp at hs
              | ok n =>
                rw [hn] at hs
                simp only [] at hs
                by_cases hn1 : n ≠ 1
                · rw [if_pos hn1] at hs
                  simp only [Except.ok.injEq] at hs
                  rw [← hs]
                · rw [if_neg hn1] at hs
                  cases hd : t.downgradeIndices with
                  | error e => rw [hd] at hs; simp at hs
                  | ok o =>
                    rw [hd] at hs
                    cases o with
                    | none => simp at hs
                    | some s =>
                      simp only [] at hs
                      by_cases hk' : s.kind = .c ∧ core = true
                      · rw [if_pos hk'] at hs
                        cases hm : Tensor.make .kronecker t.upper t.lower ['K'] (-1) with
                        | error e => rw [hm] at hs; simp at hs
                        | ok k =>
                          rw [hm] at hs
                          simp only [Except.ok.injEq] at hs
                          rw [← hs] at hk
                          obtain ⟨rfl, -⟩ := Tensor.make_eq hm
                          exact absurd rfl hk
                      · rw [if_neg hk'] at hs
                        simp only [Except.ok.injEq] at hs
                        rw [← hs]
            · rw [if_neg hc] at hs
              simp only [pure, Except.pure, Except.ok.injEq] at hs
              rw [← hs]
          rw [this]; simp
        · exact List.mem_cons_of_mem _ (ih _ _ hr x hx hk)

theorem removeDeltas_cls {diag : Finset Index} : ∀ (ts : List Tensor) (st : ReplState) (r : ReplState × List Tensor),
    removeDeltas diag st ts = .ok r → ∀ x ∈ r.2, x.cls ≠ .kronecker := by
  intro ts
  induction ts with
  | nil =>
    intro st r h
    simp only [removeDeltas, pure, Except.pure, Except.ok.injEq] at h
    subst h; simp
  | cons t ts ih =>
    intro st r h
    simp only [removeDeltas] at h
    split_ifs at h with hk
    · simp only [bind, Except.bind] at h
      cases hs : deltaStep diag st t with
      | error e => rw [hs] at h; simp at h
      | ok st' =>
        rw [hs] at h
        exact ih _ _ h
    · simp only [bind, Except.bind] at h
      cases hr : removeDeltas diag st ts with
      | error e => rw [hr] at h; simp at h
      | ok q =>
        rw [hr] at h
        simp only [pure, Except.pure, Except.ok.injEq] at h
        subst h
        intro x hx
        rcases List.mem_cons.1 hx with rfl | hx
        · exact hk
        · exact ih _ _ hr x hx

/-- The factors of a simplified term are factors of the term, other than deltas, with new labels. -/
theorem Term.simplify_origin {ord : SetOrder} {t t' : Term} {core removeActive : Bool} (h : t.simplify ord core removeActive = .ok t') :
    ∃ f : Index → Index, (∀ y ∈ t'.tensors, ∃ x ∈ t.tensors, x.cls ≠ .kronecker ∧ y = x.relabel f) ∧
      (t'.sqOp = t.sqOp.relabel f ∨ (t'.sqOp = (t.sqOp.relabel f).void ∧ t'.coeff = 0)) := by
  unfold Term.simplify at h
  simp only [bind, Except.bind] at h
  cases hcu : downgradeCumulants core t.diag ⟨id, t.nextNum, fun i => {i}⟩ t.tensors with
  | error e => rw [hcu] at h; simp at h
  | ok cu =>
  rw [hcu] at h
  simp only [] at h
  cases hde : removeDeltas t.diag ⟨cu.1.repl, cu.1.next, fun i => {i}⟩ cu.2 with
  | error e => rw [hde] at h; simp at h
  | ok de =>
  rw [hde] at h
  simp only [] at h
  cases hlo : diagonalLoop ord (fun i => cu.1.rdiag i ∪ de.1.rdiag i) (ord.indices t.diag) (de.1.repl, de.1.next, t.indicesSet) with
  | error e => rw [hlo] at h; simp at h
  | ok st =>
  rw [hlo] at h
  simp only [] at h
  cases hop : replaceSqOp (lookupIn st.2.2 st.1) t.sqOp with
  | error e => rw [hop] at h; simp at h
  | ok op =>
  rw [hop] at h
  simp only [] at h
  obtain ⟨rfl, -⟩ := replaceSqOp_ok (realizes_lookupIn _ _) hop
  refine ⟨st.1, ?_⟩
  by_cases hv : (removeActive && de.2.any (allActiveAmplitude st.1)) = true
  · rw [if_pos hv] at h
    simp only [pure, Except.pure, Except.ok.injEq] at h
    subst h
    exact ⟨by simp, Or.inr ⟨rfl, rfl⟩⟩
  · rw [if_neg hv] at h
    cases hts : replaceTensors (lookupIn st.2.2 st.1) de.2 with
    | error e => rw [hts] at h; simp at h
    | ok ts =>
      rw [hts] at h
      simp only [pure, Except.pure, Except.ok.injEq] at h
      subst h
      obtain ⟨-, rfl, -⟩ := replaceTensors_ok (realizes_lookupIn _ _) hts
      refine ⟨?_, Or.inl rfl⟩
      intro y hy
      obtain ⟨x, hx, rfl⟩ := List.mem_map.1 hy
      have hk := removeDeltas_cls _ _ _ hde x hx
      exact ⟨x, downgradeCumulants_keep _ _ _ hcu x (removeDeltas_sub _ _ _ hde x hx) hk, hk, rfl⟩

/-! ### `TypeError` -/

/-- The computation does not raise `TypeError`. -/
def NoTypeError {α : Type} (x : Except PyErr α) : Prop := x ≠ .error .typeError

theorem NoTypeError.bind {α β : Type} {x : Except PyErr α} {f : α → Except PyErr β} (h : NoTypeError x)
    (hf : ∀ a, x = .ok a → NoTypeError (f a)) : NoTypeError (x >>= f) := by
  cases x with
  | error e => intro h'; simp only [Bind.bind, Except.bind] at h'; exact h (by injection h' with h'; rw [h'])
  | ok a => exact hf a rfl

theorem NoTypeError.ok {α : Type} (a : α) : NoTypeError (.ok a) := by intro h; cases h

theorem NoTypeError.error {α : Type} {e : PyErr} (h : e ≠ .typeError) : NoTypeError (.error e : Except PyErr α) := by
  intro h'; injection h' with h'; exact h h'

theorem NoTypeError.mapM {α β : Type} {f : α → Except PyErr β} : ∀ {l : List α}, (∀ a ∈ l, NoTypeError (f a)) → NoTypeError (l.mapM f) := by
  intro l
  induction l with
  | nil => intro _; exact NoTypeError.ok _
  | cons a l ih =>
    intro h
    rw [List.mapM_cons]
    exact (h a (by simp)).bind fun b _ => (ih fun a ha => h a (by simp [ha])).bind fun bs _ => NoTypeError.ok _

theorem noType_dummyAt (D : List Index) (n : Nat) : NoTypeError (dummyAt D n) := by
  unfold dummyAt
  split
  · exact NoTypeError.ok _
  · exact NoTypeError.error (by decide)

theorem noType_indices (ty : IType) (l : List Index) : NoTypeError (Indices.make ty l) := by
  unfold Indices.make
  split_ifs
  all_goals first
    | exact NoTypeError.ok _
    | exact NoTypeError.error (e := .valueError) (by decide)

theorem noType_pair {u l : Indices} (h : u.ty = l.ty) : NoTypeError (IndicesPair.make u l) := by
  unfold IndicesPair.make
  rw [if_neg (by simpa using h)]
  exact NoTypeError.ok _

theorem noType_spin (x : IndicesPair) : NoTypeError (requireSpinConserving x) := by
  unfold requireSpinConserving IndicesPair.isSpinConserving
  by_cases h : x.nUpper = x.nLower
  · rw [if_pos h]
    simp only []
    split_ifs
    · exact NoTypeError.ok _
    · exact NoTypeError.error (by decide)
  · rw [if_neg h]; exact NoTypeError.error (by decide)

theorem noType_one (x : IndicesPair) : NoTypeError (requireOneBody x) := by
  unfold requireOneBody
  split_ifs
  · exact NoTypeError.ok _
  · exact NoTypeError.error (by decide)

theorem noType_cluster (k : Kind) (l : List Index) : NoTypeError (clusterTest k l) := by
  unfold clusterTest
  simp only []
  split_ifs
  · exact NoTypeError.error (by decide)
  · exact NoTypeError.ok _

theorem noType_tensor {cls : TCls} {u l : Indices} {name : PyStr} {prio : Int} (h : u.ty = l.ty) : NoTypeError (Tensor.make cls u l name prio) := by
  unfold Tensor.make
  refine (noType_pair h).bind fun p _ => ?_
  cases cls
  · exact NoTypeError.ok _
  all_goals first
    | exact (noType_spin p).bind fun _ _ => NoTypeError.ok _
    | exact (noType_one p).bind fun _ _ => (noType_spin p).bind fun _ _ => NoTypeError.ok _
    | exact (noType_spin p).bind fun _ _ => (noType_cluster _ _).bind fun _ _ => (noType_cluster _ _).bind fun _ _ => NoTypeError.ok _

theorem noType_rebuildOp (D : List Index) (op : SqOp) (names : List Nat) : NoTypeError (rebuildOp D op names) := by
  unfold rebuildOp
  refine (NoTypeError.mapM fun n _ => noType_dummyAt D n).bind fun l _ => (noType_indices _ _).bind fun lo hlo =>
    (NoTypeError.mapM fun n _ => noType_dummyAt D n).bind fun u _ => (noType_indices _ _).bind fun up hup => noType_pair ?_
  rw [(Indices.make_eq hlo).1, (Indices.make_eq hup).1]

theorem noType_rebuildTensors (D : List Index) : ∀ (ts : List Tensor) (names : List Nat), NoTypeError (rebuildTensors D ts names) := by
  intro ts
  induction ts with
  | nil => intro names; exact NoTypeError.ok _
  | cons t ts ih =>
    intro names
    rw [rebuildTensors]
    refine (NoTypeError.mapM fun n _ => noType_dummyAt D n).bind fun l _ => (noType_indices _ _).bind fun lo hlo =>
      (NoTypeError.mapM fun n _ => noType_dummyAt D n).bind fun u _ => (noType_indices _ _).bind fun up hup => (noType_tensor ?_).bind fun x _ =>
      (ih _).bind fun xs _ => NoTypeError.ok _
    rw [(Indices.make_eq hlo).1, (Indices.make_eq hup).1]

theorem noType_nBody (x : IndicesPair) : NoTypeError x.nBody := by
  unfold IndicesPair.nBody
  split_ifs
  · exact NoTypeError.error (by decide)
  · exact NoTypeError.ok _

theorem noType_bsgs (x : IndicesPair) (h n : Bool) : NoTypeError (x.bsgs h n) := by
  unfold IndicesPair.bsgs
  split_ifs
  all_goals first
    | exact NoTypeError.error (by decide)
    | exact NoTypeError.ok _
    | exact (noType_nBody x).bind fun _ _ => NoTypeError.ok _

theorem noType_groupEntry (h : Bool) (g : List Tensor) : NoTypeError (groupEntry h g) := by
  unfold groupEntry
  cases g with
  | nil => exact NoTypeError.error (by decide)
  | cons t g => exact (noType_bsgs _ _ _).bind fun _ _ => NoTypeError.ok _

theorem noType_bsgsList (ts : List Tensor) (op : SqOp) (h : Bool) : NoTypeError (bsgsList ts op h) := by
  unfold bsgsList
  have rest : ∀ first : List SlotGroup, NoTypeError (do
      let _ ← ts.mapM fun t => t.pair.nBody
      let rest ← (tensorGroups ts).mapM (groupEntry h)
      pure (first ++ rest)) := fun first => (NoTypeError.mapM fun t _ => noType_nBody _).bind fun _ _ =>
    (NoTypeError.mapM fun g _ => noType_groupEntry _ _).bind fun _ _ => NoTypeError.ok _
  simp only []
  split_ifs
  · exact rest _
  · refine NoTypeError.bind ?_ fun _ _ => rest _
    unfold IndicesPair.opBsgs
    split_ifs <;> exact noType_bsgs _ _ _

theorem noType_slotNames (d : Dict Index Index) : ∀ (L : List Index) (tr : Index → Nat), NoTypeError (slotNames (dictFind d) tr L) := by
  intro L
  induction L with
  | nil => intro tr; exact NoTypeError.ok _
  | cons i L ih =>
    intro tr
    rw [slotNames]
    refine NoTypeError.bind ?_ fun _ _ => (ih _).bind fun _ _ => NoTypeError.ok _
    unfold dictFind
    split
    · exact NoTypeError.ok _
    · exact NoTypeError.error (by decide)

theorem noType_termMake {ts : List Tensor} {op : SqOp} {c : ℚ} (h : ∀ x ∈ ts, x.upper.ty = op.upper.ty) : NoTypeError (Term.make ts op c) := by
  intro h'
  rcases Term.make_error h' with h | h
  · exact h.2 ‹_›
  · exact absurd h.1 (by decide)

theorem refillAll_types {ty : IType} : ∀ (ts : List Tensor) (L : List Index), (∀ t ∈ ts, t.upper.ty = ty) → ∀ x ∈ refillAll ts L, x.upper.ty = ty := by
  intro ts
  induction ts with
  | nil => intro L _ x hx; simp [refillAll] at hx
  | cons t ts ih =>
    intro L h x hx
    rw [refillAll] at hx
    rcases List.mem_cons.1 hx with rfl | hx
    · exact h t (by simp)
    · exact ih _ (fun t ht => h t (by simp [ht])) x hx

theorem count_map_of_inj {α β : Type} [DecidableEq α] [DecidableEq β] {f : α → β} (a : α) : ∀ (L : List α), (∀ i ∈ L, f i = f a → i = a) →
    (L.map f).count (f a) = L.count a := by
  intro L
  induction L with
  | nil => simp
  | cons b L ih =>
    intro h
    rw [List.map_cons, List.count_cons, List.count_cons, ih fun i hi => h i (by simp [hi])]
    have := h b (by simp)
    by_cases hb : b = a
    · simp [hb]
    · have hne : f b ≠ f a := fun e => hb (this e)
      simp [hb, hne]

/-- A `TypeError` comes from SymPy's answer `0`. -/
theorem Term.sympy_typeError {canon : List Nat → List (Nat × Nat) → List SlotGroup → Option (List Nat)} {ord : SetOrder} {t s : Term}
    {core removeActive hermitian : Bool} (hs : t.simplify ord core removeActive = .ok s) (hty : ∀ x ∈ s.tensors, x.upper.ty = s.sqOp.upper.ty)
    (h : t.canonicalizeSympy canon ord core removeActive hermitian = .error .typeError) :
    ∃ names v, slotNames (dictFind s.minimalIndices) (fun m => 2 * (sortedDummies s.minimalIndices).idxOf m)
        (slotLabels s.tensors s.sqOp) = .ok names ∧ bsgsList s.tensors s.sqOp hermitian = .ok v ∧
      (names ++ [names.length, names.length + 1]).Perm (List.range (names ++ [names.length, names.length + 1]).length) ∧
      canon (names ++ [names.length, names.length + 1]) (dummyRanges 0 (spaceGroups (sortedDummies s.minimalIndices))) v = none := by
  unfold Term.canonicalizeSympy at h
  rw [hs] at h
  simp only [bind, Except.bind] at h
  by_cases hv : s.isVoid = true
  · rw [if_pos hv] at h
    exact absurd h (noType_termMake (by simp))
  rw [if_neg hv] at h
  cases hn : slotNames (dictFind s.minimalIndices) (fun m => 2 * (sortedDummies s.minimalIndices).idxOf m) (slotLabels s.tensors s.sqOp) with
  | error e =>
    rw [hn] at h
    simp only [Except.error.injEq] at h
    exact absurd (by rw [hn, h]) (noType_slotNames s.minimalIndices (slotLabels s.tensors s.sqOp) _)
  | ok names =>
  rw [hn] at h
  simp only [] at h
  cases hb : bsgsList s.tensors s.sqOp hermitian with
  | error e =>
    rw [hb] at h
    simp only [Except.error.injEq] at h
    exact absurd (by rw [hb, h]) (noType_bsgsList s.tensors s.sqOp hermitian)
  | ok v =>
  rw [hb] at h
  simp only [] at h
  split_ifs at h with hp
  · refine ⟨names, v, rfl, rfl, hp, ?_⟩
    cases hc : canon (names ++ [names.length, names.length + 1]) (dummyRanges 0 (spaceGroups (sortedDummies s.minimalIndices))) v with
    | none => rfl
    | some gc =>
      exfalso
      rw [hc] at h
      simp only [] at h
      cases ho : rebuildOp (sortedDummies s.minimalIndices) s.sqOp gc with
      | error e =>
        rw [ho] at h
        simp only [Except.error.injEq] at h
        exact noType_rebuildOp (sortedDummies s.minimalIndices) s.sqOp gc (by rw [ho, h])
      | ok op =>
      rw [ho] at h
      simp only [] at h
      cases ht : rebuildTensors (sortedDummies s.minimalIndices) s.tensors (gc.drop s.sqOp.size) with
      | error e =>
        rw [ht] at h
        simp only [Except.error.injEq] at h
        exact noType_rebuildTensors (sortedDummies s.minimalIndices) s.tensors _ (by rw [ht, h])
      | ok ts =>
      rw [ht] at h
      simp only [] at h
      obtain ⟨rfl, -⟩ := rebuildOp_ok ho
      obtain ⟨rfl, -⟩ := rebuildTensors_ok ht
      exact noType_termMake (op := s.sqOp.refill (gc.map (look (sortedDummies s.minimalIndices)))) (refillAll_types _ _ hty) h
  · simp at h

theorem eq_zero_of_eq_neg (R : Type) {M : Type} [CommRing R] [Algebra ℚ R] [AddCommGroup M] [Module R M] {x : M} (h : x = -x) : x = 0 := by
  have h2 : (algebraMap ℚ R (1 / 2)) • (x + x) = x := by
    rw [← two_smul R x, smul_smul]
    have : (algebraMap ℚ R (1 / 2)) * 2 = 1 := by
      have h2 : (2 : R) = algebraMap ℚ R 2 := (map_ofNat _ 2).symm
      rw [h2, ← map_mul]; norm_num
    rw [this, one_smul]
  have h3 : x + x = 0 := by nth_rewrite 2 [h]; simp
  rw [← h2, h3, smul_zero]

section
variable {O R M : Type} [Fintype O] [DecidableEq O] [Inhabited O] [CommRing R] [Algebra ℚ R] [AddCommGroup M] [Module R M]

/-- When SymPy answers `0`, the value is zero. -/
theorem Term.sympy_zero {canon : List Nat → List (Nat × Nat) → List SlotGroup → Option (List Nat)} (hcanon : CanonContract canon)
    {s : Term} {hermitian : Bool} (hs : labelsOf s.tensors s.sqOp ⊆ s.indicesSet) (hty : ∀ x ∈ s.tensors, x.upper.ty = s.sqOp.upper.ty)
    (hbal : s.sqOp.upper.list.length = s.sqOp.lower.list.length)
    (hkind : ∀ x ∈ s.tensors, ∀ y ∈ s.tensors, x.name = y.name → x.cls = y.cls)
    (htwo : ∀ i, (labelList s.tensors s.sqOp).count i ≤ 2)
    {names : List Nat} (hnames : slotNames (dictFind s.minimalIndices) (fun m => 2 * (sortedDummies s.minimalIndices).idxOf m)
      (slotLabels s.tensors s.sqOp) = .ok names)
    {v : List SlotGroup} (hv : bsgsList s.tensors s.sqOp hermitian = .ok v)
    (hnd : names.Nodup)
    (hgc : canon (names ++ [names.length, names.length + 1]) (dummyRanges 0 (spaceGroups (sortedDummies s.minimalIndices))) v = none)
    (I : Interp O R M) (orb : Orbitals O) (hI : I.SlotSymmetric s.sqOp.upper.ty.isAntisym hermitian) :
    I.value orb s.coeff s.tensors s.sqOp = 0 := by
  set D := sortedDummies s.minimalIndices with hDdef
  set f := dictFun s.minimalIndices with hf
  obtain ⟨hD, hDm⟩ := sortedDummies_spec hs
  rw [← hDdef] at hD hDm
  obtain ⟨next, hm, hkeys⟩ := minimalIndices_spec s hs
  obtain ⟨hlen, -, hform⟩ := slotNames_spec (realizes_dictFind _) _ _ _ hnames
  have hnl := hlen
  rw [slotLabels_length] at hnl
  have hinj : ∀ i ∈ slotLabels s.tensors s.sqOp, ∀ j ∈ slotLabels s.tensors s.sqOp, f i = f j → i = j := by
    intro i hi j hj e
    have : ∀ i ∈ slotLabels s.tensors s.sqOp, i ∈ labelsOf s.tensors s.sqOp := by
      intro i hi; rwa [mem_labelsOf, ← (slotLabels_perm _ _).mem_iff]
    exact hm.injOn ((hkeys i).2 (this i hi)) ((hkeys j).2 (this j hj)) e
  have hrange : ∀ n ∈ names, n < 2 * D.length := by
    intro n hn
    obtain ⟨p, hp, rfl⟩ := List.mem_iff_getElem.1 hn
    obtain ⟨j, hj, e⟩ := hform p (by omega) hp
    rw [← hf] at e hj
    rw [e]
    have hmem : f (slotLabels s.tensors s.sqOp)[p] ∈ D := (hDm _).2 (List.mem_map_of_mem (List.getElem_mem _))
    have := List.idxOf_lt_length_iff.2 hmem
    have hc : ((slotLabels s.tensors s.sqOp).map f).count (f (slotLabels s.tensors s.sqOp)[p]) ≤ 2 := by
      rw [count_map_of_inj _ _ (fun i hi => hinj i hi _ (List.getElem_mem _)), (slotLabels_perm _ _).count_eq]
      exact htwo _
    omega
  obtain ⟨names', flip, he, -, hval⟩ := symSteps_value hv hD (fun t ht => by rw [hty t ht]) rfl hbal hkind I orb hI hnl ((hcanon.zero _ _ _).1 hgc)
  have hfl : flipSign (names ++ [names.length, names.length + 1]) = names ++ [names.length + 1, names.length] := by
    unfold flipSign; simp
  rw [hfl] at he
  have hend : names' = names ∧ flip = true := by
    cases flip
    · obtain ⟨-, h2, -⟩ := append_two_inj he
      omega
    · obtain ⟨h1, -, -⟩ := append_two_inj he
      exact ⟨h1.symm, rfl⟩
  obtain ⟨rfl, rfl⟩ := hend
  obtain ⟨-, hval⟩ := hval hrange
  rw [slotNames_look (realizes_dictFind _) hD hDm hnames hnd hrange] at hval
  have hfv : I.fillValue orb s.tensors s.sqOp ((slotLabels s.tensors s.sqOp).map f) = I.value orb 1 s.tensors s.sqOp := by
    obtain ⟨h1, h2⟩ := refill_slotLabels f s.tensors s.sqOp
    unfold Interp.fillValue
    rw [h1, h2]
    apply I.value_relabel
    · exact fun i hi j hj e => hm.injOn ((hkeys i).2 hi) ((hkeys j).2 hj) e
    · exact fun i hi => hm.space _ (dictFind_ok hm.keys ((hkeys i).2 hi)).2
  rw [hfv] at hval
  rw [I.value_eq_smul, eq_zero_of_eq_neg R (x := I.value orb 1 s.tensors s.sqOp) (by simpa using hval), smul_zero]

end

end Dsrg
