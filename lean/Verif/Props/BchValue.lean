import Verif.Lemmas.BchValue
import Verif.Props.Bch

/-!
Properties C74 and C75: what the terms returned by `nested_commutator_cc` and `bch_cc_rsc` add up to.
-/

namespace Dsrg

/-! ### The products of `nested_commutator_cc` -/

theorem nestedFactors_total (singleRef : Bool) : ∀ (names : List OpName) (start : Nat), ∃ terms, nestedFactors singleRef start names = .ok terms := by
  have hb1 : (holeSpace singleRef).beta = false := by cases singleRef <;> rfl
  have hb2 : (particleSpace singleRef).beta = false := by cases singleRef <;> rfl
  intro names
  induction names with
  | nil => exact fun start => ⟨[], rfl⟩
  | cons x names ih =>
    intro start
    cases x with
    | H k =>
      obtain ⟨t, _, h1, -⟩ := C38_hamiltonian k 0 .spinOrbital
      obtain ⟨ts, h2⟩ := ih start
      exact ⟨t :: ts, by simp only [nestedFactors, bind, Except.bind, h1, h2]; rfl⟩
    | T k =>
      obtain ⟨t, _, h1, -⟩ := C38_cluster k start true ['T'] 1 (holeSpace singleRef) (particleSpace singleRef) .spinOrbital (hb1.trans hb2.symm) fun _ => hb1
      obtain ⟨ts, h2⟩ := ih (start + k)
      exact ⟨t :: ts, by simp only [nestedFactors, bind, Except.bind, h1, h2]; rfl⟩
    | X k =>
      obtain ⟨t, _, h1, -⟩ := C38_cluster k start false ['T'] 1 (holeSpace singleRef) (particleSpace singleRef) .spinOrbital (hb1.trans hb2.symm) fun _ => hb1
      obtain ⟨ts, h2⟩ := ih (start + k)
      exact ⟨t :: ts, by simp only [nestedFactors, bind, Except.bind, h1, h2]; rfl⟩

theorem nestedFactors_isFactor {singleRef : Bool} : ∀ {names : List OpName} {start : Nat} {terms : List Term},
    nestedFactors singleRef start names = .ok terms → List.Forall₂ (IsFactor singleRef) names terms := by
  intro names
  induction names with
  | nil => intro start terms h; injection h with h; subst h; exact List.Forall₂.nil
  | cons x names ih =>
    intro start terms h
    cases x <;>
    · simp only [nestedFactors, bind, Except.bind] at h
      split at h
      · cases h
      · rename_i t ht
        split at h
        · cases h
        · rename_i ts hts
          injection h with h
          subst h
          refine List.Forall₂.cons ?_ (ih hts)
          first | exact ht | exact ⟨_, ht⟩

/-- The number whose multiples are the coefficients of a product of one Hamiltonian and `n` amplitudes of at most `K` bodies. -/
theorem wordCoeff {levels : List Nat} {K : Nat} (hK : ∀ k ∈ levels, k ≤ K) : ∀ {w : List OpName},
    (∀ x ∈ w, (x.isH = true → x = .H 1 ∨ x = .H 2) ∧ (x.isH = false → x.bodies ∈ levels)) →
    ∃ n : ℤ, (w.map fun x => 1 / (x.bodies.factorial : ℚ) ^ 2).prod =
      n * (1 / (4 ^ w.countP OpName.isH * ((K.factorial : ℚ) ^ 2) ^ (w.length - w.countP OpName.isH))) := by
  intro w
  induction w with
  | nil => intro _; exact ⟨1, by simp⟩
  | cons x w ih =>
    intro h
    obtain ⟨n, hn⟩ := ih fun y hy => h y (by simp [hy])
    have hle : w.countP OpName.isH ≤ w.length := List.countP_le_length
    have hK0 : (K.factorial : ℚ) ≠ 0 := by exact_mod_cast Nat.factorial_ne_zero K
    rw [List.map_cons, List.prod_cons, hn, List.countP_cons, List.length_cons]
    cases hx : x.isH with
    | true =>
      simp only [if_true]
      rw [show w.length + 1 - (w.countP OpName.isH + 1) = w.length - w.countP OpName.isH by omega, pow_succ]
      rcases (h x (by simp)).1 hx with rfl | rfl
      · exact ⟨4 * n, by simp only [OpName.bodies, Nat.factorial]; push_cast; field_simp; ring⟩
      · exact ⟨n, by simp only [OpName.bodies, Nat.factorial]; push_cast; field_simp; ring⟩
    | false =>
      simp only [Bool.false_eq_true, if_false, add_zero]
      rw [show w.length + 1 - w.countP OpName.isH = (w.length - w.countP OpName.isH) + 1 by omega, pow_succ]
      obtain ⟨d, hd⟩ := Nat.factorial_dvd_factorial (hK _ ((h x (by simp)).2 hx))
      have hb0 : (x.bodies.factorial : ℚ) ≠ 0 := by exact_mod_cast Nat.factorial_ne_zero _
      have hdq : (K.factorial : ℚ) = x.bodies.factorial * d := by exact_mod_cast hd
      have hd0 : (d : ℚ) ≠ 0 := by intro e; rw [e, mul_zero] at hdq; exact hK0 hdq
      refine ⟨d ^ 2 * n, ?_⟩
      rw [hdq]
      push_cast
      field_simp
      ring

section
variable {O R M : Type} [Fintype O] [DecidableEq O] [Inhabited O] [CommRing R] [Algebra ℚ R] [AddCommGroup M] [Module R M]

/-- Values chosen for the products that were contracted. -/
theorem choose_values {P : List OpName → M → Prop} {Q : ℤ × List OpName → List Term → M → Prop} {words : List (List OpName)}
    (h0 : ∀ w ∈ words, ∃ v, P w v) : ∀ {e : List (ℤ × List OpName)} {outs : List (List Term)}, (e.map Prod.snd).Nodup →
    List.Forall₂ (fun p out => ∃ v, P p.2 v ∧ Q p out v) e outs →
    ∃ W : List OpName → M, (∀ w ∈ words, P w (W w)) ∧ List.Forall₂ (fun p out => Q p out (W p.2)) e outs := by
  classical
  intro e
  induction e with
  | nil =>
    intro outs _ h
    cases h
    exact ⟨fun w => if h : w ∈ words then (h0 w h).choose else 0, fun w hw => by simp only [dif_pos hw]; exact (h0 w hw).choose_spec, List.Forall₂.nil⟩
  | cons p e ih =>
    intro outs hn h
    cases h with
    | cons h hrest =>
    rw [List.map_cons, List.nodup_cons] at hn
    obtain ⟨W, h1, h2⟩ := ih hn.2 hrest
    obtain ⟨v, hv, hq⟩ := h
    refine ⟨Function.update W p.2 v, ?_, List.Forall₂.cons ?_ ?_⟩
    · intro w hw
      by_cases e : w = p.2
      · subst e; rw [Function.update_self]; exact hv
      · rw [Function.update_of_ne e]; exact h1 w hw
    · rw [Function.update_self]; exact hq
    · have hz : ∀ {e : List (ℤ × List OpName)} {outs : List (List Term)}, (p.2 ∉ e.map Prod.snd) →
          List.Forall₂ (fun p out => Q p out (W p.2)) e outs → List.Forall₂ (fun q out => Q q out (Function.update W p.2 v q.2)) e outs := by
        intro e outs hno hf
        induction hf with
        | nil => exact List.Forall₂.nil
        | cons h _ ih =>
          rw [List.map_cons, List.mem_cons, not_or] at hno
          refine List.Forall₂.cons ?_ (ih hno.2)
          rw [Function.update_of_ne (Ne.symm hno.1)]
          exact h
      exact hz hn.1 h2

/-! ### C74 `nested_commutator_cc` -/

/-- The value of the terms that `nested_commutator_cc` returns, when the value of every product is known. -/
theorem nestedRun_value {m : Machine} (hcanon : CanonContract m.canon) (hord : m.ord.Lawful) {o : Options}
    {level : Nat} (hl : 1 ≤ level) {levels : List Nat} {K : Nat} (hK : ∀ k ∈ levels, 1 ≤ k ∧ k ≤ K)
    (hsize : level.factorial * (4 * (K.factorial ^ 2) ^ level) ≤ 10 ^ 15) {unitary singleRef : Bool}
    {expansion : List (ℤ × List OpName)} {calls : List (List Term × ℚ)} {out : List Term}
    (h : NestedRun m o level levels unitary singleRef expansion calls out)
    (orb : Orbitals O) (I : Interp O R M) {P : List OpName → M → Prop}
    (hval : ∀ w ∈ (nestedWords [.H 1, .H 2] (ampSymbols levels unitary) level).map Prod.snd, ∀ terms, nestedFactors singleRef 0 w = .ok terms →
      (∀ t ∈ terms, GoodTerm t) → terms.Pairwise DisjointLabels → properOps terms = terms.map Term.sqOp → terms.length = level + 1 →
      (∃ v, P w v) ∧ ∀ (scale : ℚ) (out : List Term), scale ≠ 0 → ¬ Negligible (scale * (terms.map Term.coeff).prod) → ContractRun m o terms scale out →
        ∃ v, P w v ∧ I.listValue orb out = algebraMap ℚ R scale • v) :
    ∃ W : List OpName → M,
      (∀ w ∈ (nestedWords [.H 1, .H 2] (ampSymbols levels unitary) level).map Prod.snd, P w (W w)) ∧
      I.listValue orb out =
        (algebraMap ℚ R (1 / level.factorial)) • ((nestedWords [.H 1, .H 2] (ampSymbols levels unitary) level).map fun p => p.1 • W p.2).sum := by
  obtain ⟨all, h1, h2, h3⟩ := h
  have hws := h1.wordSum
  rw [max_eq_right hl] at hws
  set words := (nestedWords [OpName.H 1, OpName.H 2] (ampSymbols levels unitary) level).map Prod.snd with hwords
  have hmem : ∀ p ∈ expansion, p.2 ∈ words := fun p hp => mem_words_of_sum hws h1.words h1.coeff hp
  set c : ℚ := 1 / (level.factorial * (4 * ((K.factorial : ℚ) ^ 2) ^ level)) with hcdef
  have hf0 : (level.factorial : ℚ) ≠ 0 := by exact_mod_cast Nat.factorial_ne_zero _
  have hK0 : (K.factorial : ℚ) ≠ 0 := by exact_mod_cast Nat.factorial_ne_zero K
  have hcpos : 1 / 10 ^ 15 ≤ |c| := by
    rw [abs_of_nonneg (by positivity), hcdef]
    refine one_div_le_one_div_of_le (by positivity) ?_
    exact_mod_cast hsize
  -- the factors of a product
  have hfac : ∀ w ∈ words, ∀ terms, nestedFactors singleRef 0 w = .ok terms →
      (∀ t ∈ terms, GoodTerm t) ∧ terms.Pairwise DisjointLabels ∧ properOps terms = terms.map Term.sqOp ∧ terms.length = level + 1 ∧
      ∃ n : ℤ, (terms.map Term.coeff).prod = n * (1 / (4 * ((K.factorial : ℚ) ^ 2) ^ level)) := by
    intro w hw terms ht
    obtain ⟨k1, k2, k3⟩ := nestedWords_mem hw
    obtain ⟨g1, g2, -, -, g5, -, g7⟩ := nestedFactors_good (by omega) ht
    have hbody : ∀ x ∈ w, 1 ≤ x.bodies := by
      intro x hx
      cases hxh : x.isH with
      | true => rcases (k3 x hx).1 hxh with rfl | rfl <;> simp [OpName.bodies]
      | false => exact (hK _ ((k3 x hx).2 hxh)).1
    refine ⟨g1, g2, ?_, ?_, ?_⟩
    · unfold properOps
      rw [List.filter_eq_self]
      intro op hop
      obtain ⟨t, ht', rfl⟩ := List.mem_map.1 hop
      have : t.sqOp.upper.list.length ∈ w.map OpName.bodies := by rw [← g5]; exact List.mem_map_of_mem ht'
      obtain ⟨x, hx, e⟩ := List.mem_map.1 this
      have := hbody x hx
      rw [e] at this
      simp only [decide_eq_true_eq]
      exact Or.inl (List.ne_nil_of_length_pos this)
    · have := congrArg List.length g5
      simpa [k2] using this
    · obtain ⟨n, hn⟩ := wordCoeff (fun k hk => (hK k hk).2) k3
      rw [k1, k2, Nat.add_sub_cancel, pow_one, ← g7] at hn
      exact ⟨n, hn⟩
  -- the values of all products
  have hex : ∀ w ∈ words, ∃ v, P w v := by
    intro w hw
    obtain ⟨terms, ht⟩ := nestedFactors_total singleRef w 0
    obtain ⟨g1, g2, g3, g4, -⟩ := hfac w hw terms ht
    exact (hval w hw terms ht g1 g2 g3 g4).1
  obtain ⟨hcalls, outs, houts, rfl⟩ := nestedLoop_calls h2
  -- every call
  have hall : List.Forall₂ (fun p out => ∃ terms, nestedFactors singleRef 0 p.2 = .ok terms ∧
      ContractRun m o terms (1 / (level.factorial : ℚ) * p.1) out) expansion outs := by
    clear h1 h2 h3 hws hmem
    induction hcalls generalizing outs with
    | nil => cases houts; exact List.Forall₂.nil
    | cons h _ ih =>
      cases houts with
      | cons h' hrest =>
      refine List.Forall₂.cons ⟨_, h.1, ?_⟩ (ih _ hrest)
      rw [← h.2]; exact h'
  have hcall : ∀ p ∈ expansion, ∀ terms out, nestedFactors singleRef 0 p.2 = .ok terms → ContractRun m o terms (1 / (level.factorial : ℚ) * p.1) out →
      (∀ t ∈ out, GoodTerm t ∧ Multiple c t.coeff) ∧ ∃ v, P p.2 v ∧
        I.listValue orb out = (algebraMap ℚ R (1 / (level.factorial : ℚ) * p.1)) • v := by
    intro p hp terms out ht hr
    obtain ⟨g1, g2, g3, g4, n, hn⟩ := hfac p.2 (hmem p hp) terms ht
    have ho := ordinary_of_good g1 g2
    have hlen : 2 ≤ (properOps terms).length := by rw [g3, List.length_map, g4]; omega
    have hpl : ¬ (productOps terms).length < 2 := by rw [← properOps_eq]; omega
    have hm : 1 / (level.factorial : ℚ) * p.1 * (terms.map Term.coeff).prod = (p.1 * n : ℤ) * c := by
      rw [hn, hcdef]; push_cast; field_simp
    have hp0 : (1 / (level.factorial : ℚ) * p.1) ≠ 0 :=
      mul_ne_zero (one_div_ne_zero hf0) (by exact_mod_cast h1.coeff p hp)
    refine ⟨?_, ?_⟩
    · intro t ht
      refine ⟨(ContractRun.good hcanon hord g1 g2 hpl hr t ht).1, ?_⟩
      have := ContractRun.multiple ho hpl hr t ht
      rw [productCoeff_eq] at this
      exact this.trans hm hcpos
    · exact (hval p.2 (hmem p hp) terms ht g1 g2 g3 g4).2 _ out hp0 (Multiple.not_negligible ⟨p.1 * n, hm, Or.inr hcpos⟩) hr
  obtain ⟨W, hW, hsum⟩ := choose_values (P := P)
    (Q := fun p out v => I.listValue orb out = (algebraMap ℚ R (1 / (level.factorial : ℚ) * p.1)) • v) hex h1.words (outs := outs) (by
      have key : ∀ {e : List (ℤ × List OpName)} {outs : List (List Term)}, (∀ p ∈ e, p ∈ expansion) →
          List.Forall₂ (fun p out => ∃ terms, nestedFactors singleRef 0 p.2 = .ok terms ∧
            ContractRun m o terms (1 / (level.factorial : ℚ) * p.1) out) e outs →
          List.Forall₂ (fun p out => ∃ v, P p.2 v ∧
            I.listValue orb out = (algebraMap ℚ R (1 / (level.factorial : ℚ) * p.1)) • v) e outs := by
        intro e outs hsub hf
        induction hf with
        | nil => exact List.Forall₂.nil
        | cons h _ ih =>
          obtain ⟨terms, e1, e2⟩ := h
          exact List.Forall₂.cons (hcall _ (hsub _ (by simp)) terms _ e1 e2).2 (ih fun p hp => hsub p (by simp [hp]))
      exact key (fun p hp => hp) hall)
  refine ⟨W, hW, ?_⟩
  have hgood : ∀ t ∈ outs.flatten, GoodTerm t ∧ Multiple c t.coeff := by
    intro t ht
    obtain ⟨out', ho', ht⟩ := List.mem_flatten.1 ht
    obtain ⟨p, hp, terms, e1, e2⟩ := forall₂_mem_right hall ho'
    exact (hcall p hp terms out' e1 e2).1 t ht
  have hv := combine_listValue (fun t ht => (hgood t ht).1) (fun t ht => (hgood t ht).2) h3 I orb
  rw [hv]
  rw [← wordSum_functional hws W]
  clear hv hgood hall h3 hcalls h2 houts h1 hws hmem hcall hW hex
  induction hsum with
  | nil => simp [Interp.listValue]
  | @cons p out e outs h _ ih =>
    rw [List.flatten_cons, listValue_append, ih, h, List.map_cons, List.sum_cons, smul_add]
    congr 1
    rw [map_mul, mul_smul, map_intCast, Int.cast_smul_eq_zsmul]

/-- C74: the terms that `nested_commutator_cc` returns add up to the nested commutator, divided by the factorial of its depth: every
product of the Hamiltonian and the amplitudes that occurs in it stands for the sum of all allowed contractions of these operators.
Partial: `for_commutator=False`; the numbers of bodies are at least 1, and the coefficients of the products must not fall under the
threshold of `combine_terms`. -/
theorem C74_nested_partial (m : Machine) (hcanon : CanonContract m.canon) (hord : m.ord.Lawful) (o : Options) (hf : o.forCommutator = false)
    (level : Nat) (hl : 1 ≤ level) (levels : List Nat) (K : Nat) (hK : ∀ k ∈ levels, 1 ≤ k ∧ k ≤ K)
    (hsize : level.factorial * (4 * (K.factorial ^ 2) ^ level) ≤ 10 ^ 15) (unitary singleRef : Bool)
    (expansion : List (ℤ × List OpName)) (calls : List (List Term × ℚ)) (out : List Term)
    (h : NestedRun m o level levels unitary singleRef expansion calls out)
    (orb : Orbitals O) (I : Interp O R M) (hI : I.SlotSymmetric true o.hermitian) (hph : I.Physical orb) (hac : I.ActiveCumulants orb)
    (hna : I.NoActiveAmplitudes orb) :
    ∃ W : List OpName → M,
      (∀ w ∈ (nestedWords [.H 1, .H 2] (ampSymbols levels unitary) level).map Prod.snd,
        IsWordValue I orb singleRef o.maxCu o.maxOpen o.minOpen w (W w)) ∧
      (out.map fun t => I.value orb t.coeff t.tensors t.sqOp).sum =
        (algebraMap ℚ R (1 / level.factorial)) • ((nestedWords [.H 1, .H 2] (ampSymbols levels unitary) level).map fun p => p.1 • W p.2).sum := by
  refine nestedRun_value hcanon hord hl hK hsize h orb I fun w hw terms ht g1 g2 g3 g4 => ?_
  have ho := ordinary_of_good g1 g2
  refine ⟨?_, fun scale out hs hn hr => ?_⟩
  · obtain ⟨V, hV⟩ := contraction_exists ho o.maxCu o.maxOpen o.minOpen (terms.map Term.coeff).prod hph
    exact ⟨V, terms, nestedFactors_isFactor ht, g2, by rw [← g3]; exact hV⟩
  · have hlen : 2 ≤ (properOps terms).length := by rw [g3, List.length_map, g4]; omega
    have hV := C66_contract_terms m hcanon hord o hf terms ho (contractible_of_good g1 g2) hlen scale hn out hr orb I hI hph hac hna
    refine ⟨(algebraMap ℚ R scale⁻¹) • I.listValue orb out, ⟨terms, nestedFactors_isFactor ht, g2, ?_⟩, ?_⟩
    · have := hV.scale scale⁻¹
      rw [g3, ← mul_assoc, inv_mul_cancel₀ hs, one_mul] at this
      exact this
    · rw [smul_smul, ← map_mul, mul_inv_cancel₀ hs, map_one, one_smul]

/-! ### C75 `bch_cc_rsc` -/

theorem IsContraction.perm {I : Interp O R M} {orb : Orbitals O} {c : ℚ} {ts ts' : List Tensor} {ops : List SqOp} {maxCu maxOpen minOpen : Int} {V : M}
    (h : IsContraction I orb c ts ops maxCu maxOpen minOpen V) (hp : ts.Perm ts') : IsContraction I orb c ts' ops maxCu maxOpen minOpen V := by
  obtain ⟨cs, sign, rest, h1, h2, h3, rfl⟩ := h
  refine ⟨cs, sign, rest, h1, h2, h3, ?_⟩
  congr 1
  refine List.map_congr_left fun x _ => ?_
  exact I.value_perm orb _ (hp.append_right _) _

theorem IsCommutatorValue.copy {I : Interp O R M} {orb : Orbitals O} {scale : ℚ} {maxCu maxOpen minOpen : Int} {a a' b : Term} {F : M}
    (h : IsCommutatorValue I orb scale maxCu maxOpen minOpen a b F) (h1 : a.tensors.Perm a'.tensors) (h2 : a.sqOp = a'.sqOp) (h3 : a.coeff = a'.coeff) :
    IsCommutatorValue I orb scale maxCu maxOpen minOpen a' b F := by
  unfold IsCommutatorValue at h ⊢
  rw [h2, h3] at h
  refine h.imp id ?_
  rintro ⟨hne, V, W, hV, hW, e⟩
  exact ⟨hne, V, W, hV.perm (h1.append_right _), hW.perm (h1.append_left _), e⟩

theorem forall₂_append_left {α β : Type} {r : α → β → Prop} : ∀ {a b : List α} {l : List β}, List.Forall₂ r (a ++ b) l →
    ∃ l₁ l₂, List.Forall₂ r a l₁ ∧ List.Forall₂ r b l₂ ∧ l = l₁ ++ l₂ := by
  intro a
  induction a with
  | nil => intro b l h; exact ⟨[], l, List.Forall₂.nil, h, rfl⟩
  | cons x a ih =>
    intro b l h
    cases h with
    | cons h hrest =>
      obtain ⟨l₁, l₂, h1, h2, rfl⟩ := ih hrest
      exact ⟨_ :: l₁, l₂, List.Forall₂.cons h h1, h2, rfl⟩

theorem forall₂_pairs_copy {I : Interp O R M} {orb : Orbitals O} {scale : ℚ} {maxCu maxOpen minOpen : Int} {amps : List Term} :
    ∀ {l l' : List Term} {F : List M}, List.Forall₂ (fun b c : Term => c.tensors.Perm b.tensors ∧ c.sqOp = b.sqOp ∧ c.coeff = b.coeff) l l' →
    List.Forall₂ (fun (p : Term × Term) f => IsCommutatorValue I orb scale maxCu maxOpen minOpen p.1 p.2 f) (l'.flatMap fun a => amps.map fun r => (a, r)) F →
    List.Forall₂ (fun (p : Term × Term) f => IsCommutatorValue I orb scale maxCu maxOpen minOpen p.1 p.2 f) (l.flatMap fun a => amps.map fun r => (a, r)) F := by
  intro l l' F h
  induction h generalizing F with
  | nil => exact id
  | cons h _ ih =>
    intro hf
    rw [List.flatMap_cons] at hf ⊢
    obtain ⟨F₁, F₂, k1, k2, rfl⟩ := forall₂_append_left hf
    refine List.rel_append ?_ (ih k2)
    clear hf k2 ih
    generalize hA : amps = A at k1
    clear hA amps
    induction A generalizing F₁ with
    | nil => exact k1
    | cons r A ihA =>
      rw [List.map_cons] at k1 ⊢
      cases k1 with
      | cons k hrest => exact List.Forall₂.cons (k.copy h.1 h.2.1 h.2.2) (ihA _ hrest)

/-- One level after the other. -/
theorem BchLevels.value {m : Machine} (hcanon : CanonContract m.canon) (hord : m.ord.Lawful) {o : Options} {levels : List Nat}
    {unitary singleRef : Bool} {K : Nat} (hK : ∀ k ∈ levels, k ≤ K) {orb : Orbitals O} {I : Interp O R M}
    (hI : I.SlotSymmetric true o.hermitian) (hph : I.Physical orb) (hac : I.ActiveCumulants orb) (hna : I.NoActiveAmplitudes orb) :
    ∀ {limits : List (Int × Int × Int)} {i : Nat} {pool before : List Term} {calls : List (List (Term × Term))} {outs : List (List Term)},
      List.Forall₂ (fun b c : Term => c.tensors.Perm b.tensors ∧ c.sqOp = b.sqOp ∧ c.coeff = b.coeff) before pool →
      GoodList (i * (K * 2) + 4) pool → (∀ t ∈ pool, ∃ n : ℤ, t.coeff = n * (1 / (4 * ((K.factorial : ℚ) ^ 2) ^ i * i.factorial))) →
      4 * (K.factorial ^ 2) ^ (i + limits.length) * (i + limits.length).factorial ≤ 10 ^ 15 →
      BchLevels m o levels unitary singleRef (K * 2) i pool limits calls outs →
      ∀ (j : Nat) (maxCu minOpen maxOpen : Int), limits[j]? = some (maxCu, minOpen, maxOpen) →
        ∃ before' after amps F, (before :: outs)[j]? = some before' ∧ (before :: outs)[j + 1]? = some after ∧
          clusterOperators levels ((i + j) * (K * 2) + 4) unitary singleRef = .ok amps ∧
          List.Forall₂ (fun (p : Term × Term) f => IsCommutatorValue I orb (1 / ((i + j + 1 : Nat) : ℚ)) maxCu maxOpen minOpen p.1 p.2 f)
            (before'.flatMap fun l => amps.map fun r => (l, r)) F ∧ I.listValue orb after = F.sum := by
  intro limits
  induction limits with
  | nil => intro i pool before calls outs _ _ _ _ _ j _ _ _ h; simp at h
  | cons x limits ih =>
    intro i pool before calls outs hcopy hp hco hsize h j maxCu minOpen maxOpen hj
    obtain ⟨mc, mn, mx⟩ := x
    obtain ⟨amps, all, copies, out, pool', calls', outs', h1, h2, h3, h4, h5, h6, rfl, rfl⟩ := h
    have hpairs := level_pairs hK hp h1
    have g1 := CommutatorsRun.good hcanon hord hpairs h2
    have g1c := g1.copies h3
    have g2 := g1c.combine h4
    have g3 := g2.copies h5
    have e : i * (K * 2) + 4 + K * 2 = (i + 1) * (K * 2) + 4 := by ring
    rw [e] at g3
    set c : ℚ := 1 / (4 * ((K.factorial : ℚ) ^ 2) ^ (i + 1) * (i + 1).factorial) with hcdef
    have hK0 : (K.factorial : ℚ) ≠ 0 := by exact_mod_cast Nat.factorial_ne_zero K
    have hf0 : (i.factorial : ℚ) ≠ 0 := by exact_mod_cast Nat.factorial_ne_zero i
    have hc : 1 / 10 ^ 15 ≤ |c| := by
      rw [abs_of_nonneg (by positivity), hcdef]
      refine one_div_le_one_div_of_le (by positivity) ?_
      have : 4 * (K.factorial ^ 2) ^ (i + 1) * (i + 1).factorial ≤ 4 * (K.factorial ^ 2) ^ (i + (limits.length + 1)) * (i + (limits.length + 1)).factorial := by
        refine Nat.mul_le_mul (Nat.mul_le_mul_left _ (Nat.pow_le_pow_right ?_ (by omega))) (Nat.factorial_le (by omega))
        exact Nat.pow_pos (Nat.factorial_pos K)
      have := this.trans hsize
      exact_mod_cast this
    have hmul : ∀ p ∈ pool.flatMap fun l => amps.map fun r => (l, r), GoodTerm p.1 ∧ GoodTerm p.2 ∧ DisjointLabels p.1 p.2 ∧
        ∃ n : ℤ, (1 / ((i + 1 : Nat) : ℚ)) * (p.1.coeff * p.2.coeff) = n * c := by
      intro p hpm
      obtain ⟨k1, k2, k3, -⟩ := hpairs p hpm
      refine ⟨k1, k2, k3, ?_⟩
      obtain ⟨l, hl, hpm⟩ := List.mem_flatMap.1 hpm
      obtain ⟨r, hr, rfl⟩ := List.mem_map.1 hpm
      obtain ⟨n, hn⟩ := hco l hl
      obtain ⟨k, hk, -, -, hrc, -⟩ := clusterOperators_good h1 r hr
      obtain ⟨d, hd⟩ := Nat.factorial_dvd_factorial (hK k hk)
      have hb0 : (k.factorial : ℚ) ≠ 0 := by exact_mod_cast Nat.factorial_ne_zero _
      have hdq : (K.factorial : ℚ) = k.factorial * d := by exact_mod_cast hd
      have hd0 : (d : ℚ) ≠ 0 := by intro e; rw [e, mul_zero] at hdq; exact hK0 hdq
      have hi0 : (((i + 1 : Nat) : ℚ)) ≠ 0 := by exact_mod_cast Nat.succ_ne_zero i
      show ∃ n : ℤ, (1 / ((i + 1 : Nat) : ℚ)) * (l.coeff * r.coeff) = n * c
      have hr' : ∃ s : ℤ, r.coeff = s / (k.factorial : ℚ) ^ 2 := by
        rcases hrc with e | e
        · exact ⟨1, by rw [e]; norm_num⟩
        · exact ⟨-1, by rw [e]; norm_num⟩
      obtain ⟨s, hs⟩ := hr'
      refine ⟨n * s * d ^ 2, ?_⟩
      rw [hn, hs, hcdef, Nat.factorial_succ, hdq, pow_succ]
      push_cast at hi0 ⊢
      field_simp
      ring
    obtain ⟨hm, F, hF, hv⟩ := commutators_listValue hcanon hord (o := { o with maxCu := mc, maxOpen := mx, minOpen := mn }) hc hI hph hac hna hmul h2
    have hmc : ∀ r ∈ copies, Multiple c r.coeff := by
      intro r hr
      obtain ⟨t, ht, e⟩ := forall₂_mem_right (forall₂_of_mapM h3) hr
      rw [(fromTerm_copy e).2.2]
      exact hm t ht
    have hgc : ∀ t ∈ copies, GoodTerm t := fun t ht => (g1c t ht).1
    have hval : I.listValue orb out = F.sum := by
      rw [combine_listValue hgc hmc h4 I orb, copies_listValue h3 I orb, hv]
    have hcopy' : List.Forall₂ (fun b c : Term => c.tensors.Perm b.tensors ∧ c.sqOp = b.sqOp ∧ c.coeff = b.coeff) out pool' :=
      (forall₂_of_mapM h5).imp fun a b h => fromTerm_copy h
    have hco' : ∀ t ∈ pool', ∃ n : ℤ, t.coeff = n * c := by
      intro t ht
      obtain ⟨u, hu, -, -, e⟩ := forall₂_mem_right hcopy' ht
      obtain ⟨n, hn, -⟩ := combine_multiple hgc hmc h4 u hu
      exact ⟨n, by rw [e, hn]⟩
    cases j with
    | zero =>
      simp only [List.getElem?_cons_zero, Option.some.injEq, Prod.mk.injEq] at hj
      obtain ⟨rfl, rfl, rfl⟩ := hj
      exact ⟨before, out, amps, F, rfl, rfl, h1, forall₂_pairs_copy hcopy hF, hval⟩
    | succ j =>
      rw [List.getElem?_cons_succ] at hj
      have hs : 4 * (K.factorial ^ 2) ^ (i + 1 + limits.length) * (i + 1 + limits.length).factorial ≤ 10 ^ 15 := by
        rw [show i + 1 + limits.length = i + (limits.length + 1) by omega]; exact hsize
      obtain ⟨b, a, am, F', e1, e2, e3, e4, e5⟩ := ih hcopy' g3 hco' hs h6 j maxCu minOpen maxOpen hj
      refine ⟨b, a, am, F', by rw [List.getElem?_cons_succ]; exact e1, by rw [List.getElem?_cons_succ]; exact e2, ?_, ?_, e5⟩
      · rw [show i + (j + 1) = i + 1 + j by omega]; exact e3
      · rw [show i + (j + 1) + 1 = i + 1 + j + 1 by omega]; exact e4

theorem bchStart_coeff {ord : SetOrder} (hord : ord.Lawful) {start : List Term} (h : bchStart ord = .ok start) :
    ∀ t ∈ start, ∃ n : ℤ, t.coeff = n * (1 / 4) := by
  have key : ∀ {k : Nat} {out : List Term}, k = 1 ∨ k = 2 → expandedHamiltonian ord k = .ok out → ∀ t ∈ out, ∃ n : ℤ, t.coeff = n * (1 / 4) := by
    intro k out hk h t ht
    unfold expandedHamiltonian at h
    simp only [bind, Except.bind] at h
    split at h
    · cases h
    rename_i u hu
    split at h
    · cases h
    rename_i rows hrows
    have hg := expand_good hord hu hrows
    have hmul : ∀ r ∈ rows, Multiple (1 / 4) r.coeff := by
      intro r hr
      rw [(hg r hr).2.2.1]
      rcases hk with rfl | rfl
      · exact ⟨4, by norm_num [Nat.factorial], Or.inr (by norm_num)⟩
      · exact ⟨1, by norm_num [Nat.factorial], Or.inr (by norm_num)⟩
    obtain ⟨n, hn, -⟩ := combine_multiple (fun t ht => (hg t ht).1) hmul h t ht
    exact ⟨n, hn⟩
  unfold bchStart at h
  simp only [bind, Except.bind] at h
  split at h
  · cases h
  rename_i a ha
  split at h
  · cases h
  rename_i b hb
  injection h with h
  subst h
  intro t ht
  rcases List.mem_append.1 ht with ht | ht
  · exact key (Or.inl rfl) ha t ht
  · exact key (Or.inr rfl) hb t ht

/-- C75: at every level, the terms that `bch_cc_rsc` returns add up to the sum of the commutators of all terms of the level before with
all amplitudes and, in the unitary formalism, minus their conjugates, divided by the number of the level; a commutator is the
difference of all allowed contractions of the two products.  The coefficients must not fall under the threshold of
`combine_terms`. -/
theorem C75_bch (m : Machine) (hcanon : CanonContract m.canon) (hord : m.ord.Lawful) (o : Options) (levels : List Nat) (K : Nat)
    (hK : levels.max? = some K) (unitary singleRef : Bool) (limits : List (Int × Int × Int))
    (hsize : 4 * (K.factorial ^ 2) ^ limits.length * limits.length.factorial ≤ 10 ^ 15)
    (calls : List (List (Term × Term))) (outs : List (List Term)) (h : BchRun m o levels unitary singleRef limits calls outs)
    (orb : Orbitals O) (I : Interp O R M) (hI : I.SlotSymmetric true o.hermitian) (hph : I.Physical orb) (hac : I.ActiveCumulants orb)
    (hna : I.NoActiveAmplitudes orb) (j : Nat) (maxCu minOpen maxOpen : Int) (hj : limits[j]? = some (maxCu, minOpen, maxOpen)) :
    ∃ before after first amps F, outs[j]? = some before ∧ outs[j + 1]? = some after ∧
      clusterOperators levels first unitary singleRef = .ok amps ∧
      List.Forall₂ (fun (p : Term × Term) f => IsCommutatorValue I orb (1 / ((j + 1 : Nat) : ℚ)) maxCu maxOpen minOpen p.1 p.2 f)
        (before.flatMap fun l => amps.map fun r => (l, r)) F ∧
      (after.map fun t => I.value orb t.coeff t.tensors t.sqOp).sum = F.sum := by
  obtain ⟨maxLevel, start, rest, h1, h2, h3, rfl⟩ := h
  rw [hK] at h1
  injection h1 with h1
  subst h1
  have hmax : ∀ k ∈ levels, k ≤ K := fun k hk => (List.max?_eq_some_iff.1 hK).2 k hk
  obtain ⟨b, a, am, F, e1, e2, e3, e4, e5⟩ := BchLevels.value hcanon hord hmax hI hph hac hna (i := 0) (before := start)
    (List.forall₂_same.2 fun t _ => ⟨List.Perm.refl _, rfl, rfl⟩) (by simpa using (bchStart_good hord h2).1)
    (by simpa using bchStart_coeff hord h2) (by simpa using hsize) h3 j maxCu minOpen maxOpen hj
  refine ⟨b, a, _, am, F, e1, e2, e3, ?_, e5⟩
  simpa using e4

end

end Dsrg
