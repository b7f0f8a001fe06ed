import Verif.Lemmas.NetExcitation
import Verif.Lemmas.RankNested

/-!
How many operators of a product of a Hamiltonian and excitation operators are left.
-/

namespace Dsrg

theorem elementary_pair {ops : List SqOp} {h : Nat} (ho : OthersExcite ops h) {maxCu : Int} {z : Tensor}
    (hz : Elementary ops maxCu z) : z.upper.size = 1 := by
  obtain ⟨key, ⟨i, j, l, r, -, hl, hr, ⟨u, hu, v, hv, -, -, rfl⟩ | ⟨v, hv, u, hu, -, -, rfl⟩⟩ | ⟨cre, ann, hc, ha, -, -, -, hone, -, -⟩⟩ := hz
  · rfl
  · rfl
  · refine absurd ⟨h, ?_⟩ hone
    intro x hx
    by_contra hne
    rcases List.mem_append.1 hx with hx | hx
    · obtain ⟨op, h1, h2, h3, h4⟩ := mem_cumulantLegs (hc.subset hx)
      exact h4 ((ho x.1 op h1 hne).1 _ h2)
    · obtain ⟨op, h1, h2, h3, h4⟩ := mem_cumulantLegs (ha.subset hx)
      exact h3 ((ho x.1 op h1 hne).2 _ h2)

/-- There are at most as many contractions as string `h` has operators. -/
theorem contractions_le {ops : List SqOp} (hg : GoodOps ops) {h : Nat} {hop : SqOp} (hh : ops[h]? = some hop) (ho : OthersExcite ops h)
    {maxCu maxOpen minOpen : Int} {c : List Tensor} (hA : Allowed ops maxCu maxOpen minOpen c) : c.length ≤ nLegs hop := by
  classical
  have step : ∀ z ∈ c, ∃ x, x ∈ marked hop ∧ x ∈ marked z.pair := by
    intro z hz
    obtain ⟨hop', h2, h3, -⟩ := elementary_of_others hg ho (hA.elementary z hz)
    rw [hh] at h2
    obtain rfl := Option.some.inj h2
    exact h3
  haveI : Nonempty Index := ⟨⟨⟨.g, false⟩, 0⟩⟩
  choose! x hx hz using step
  have hcard : c.toFinset.card ≤ (marked hop).toFinset.card := by
    refine Finset.card_le_card_of_injOn x ?_ ?_
    · intro z hzc
      simpa using hx z (by simpa using hzc)
    · intro z hzc z' hzc' e
      have hzc : z ∈ c := by simpa using hzc
      have hzc' : z' ∈ c := by simpa using hzc'
      have a := hz z hzc
      have b := hz z' hzc'
      by_contra hne
      haveI : Std.Symm ShareNothing := ⟨fun _ _ h => h.symm⟩
      have hs : ShareNothing z z' := hA.share.forall hzc hzc' hne
      rw [← e] at b
      unfold marked at a b
      rcases List.mem_append.1 a with a | a
      · obtain ⟨i, hi, hix⟩ := List.mem_map.1 a
        rw [← hix] at b
        exact hs.1 i hi (by simpa using b)
      · obtain ⟨i, hi, hix⟩ := List.mem_map.1 a
        rw [← hix] at b
        exact hs.2 i hi (by simpa using b)
  rw [List.toFinset_card_of_nodup hA.nodup] at hcard
  have : (marked hop).length = nLegs hop := by
    unfold marked nLegs
    simp
  have := List.toFinset_card_le (marked hop)
  omega

theorem row_left {ops : List SqOp} (hg : GoodOps ops) {h : Nat} {hop : SqOp} (hh : ops[h]? = some hop) (ho : OthersExcite ops h)
    {maxCu maxOpen minOpen : Int} {c : List Tensor} (hA : Allowed ops maxCu maxOpen minOpen c) {expand : Bool} {row : Row}
    (hrow : row ∈ resultRows ops expand c) : (ops.map nLegs).sum ≤ nLegs row.2.2 + 2 * nLegs hop := by
  have hw := (conserves (maxOpen := (nOperators ops : Int) - 2 * ((c.map fun t => t.upper.size).sum : Nat))
    (minOpen := (nOperators ops : Int) - 2 * ((c.map fun t => t.upper.size).sum : Nat)) hg
    ⟨hA.nodup, hA.elementary, hA.share, le_refl _, le_refl _⟩ expand row hrow).window
  have h1 : (c.map fun t => t.upper.size).sum = c.length := by
    rw [List.map_congr_left (g := fun _ => 1) fun z hz => elementary_pair ho (hA.elementary z hz)]
    simp
  have h2 := contractions_le hg hh ho hA
  have h3 : nOperators ops = (ops.map nLegs).sum := rfl
  have h4 : nLegs row.2.2 = row.2.2.upper.size + row.2.2.lower.size := rfl
  rw [h1, h3] at hw
  omega

/-- The operators of the factors of a product. -/
theorem factors_legs : ∀ {names : List OpName} {terms : List Term}, List.Forall₂ (IsFactor true) names terms → (∀ k, OpName.X k ∉ names) →
    (∀ x ∈ names, 1 ≤ x.bodies) →
    ((terms.map Term.sqOp).map nLegs).sum = (terms.map fun t => amplitudeLegs t.tensors).sum + ((names.filter OpName.isH).map fun x => 2 * x.bodies).sum ∧
      2 * (names.countP fun x => !x.isH) ≤ (terms.map fun t => amplitudeLegs t.tensors).sum := by
  intro names terms h
  induction h with
  | nil => simp
  | @cons x t names terms hx _ ih =>
    intro hX hb
    obtain ⟨a, b⟩ := ih (fun k hk => hX k (by simp [hk])) fun x hx => hb x (by simp [hx])
    have hk := hb x (by simp)
    cases x with
    | X k => exact absurd (by simp) (hX k)
    | H k =>
      obtain ⟨t', y, e1, e2, e3, e4, e5, e6, e7, e8, -⟩ := C38_hamiltonian k 0 .spinOrbital
      have e : t = t' := Except.ok.inj (Eq.trans (Eq.symm hx) e1)
      subst e
      have n1 : nLegs t.sqOp = 2 * k := by
        unfold nLegs
        rw [e7, e8, e5, e6]
        simp only [length_consecutive]
        omega
      have n2 : amplitudeLegs t.tensors = 0 := by
        rw [e2]
        simp [amplitudeLegs, e3]
      rw [List.filter_cons_of_pos (by rfl), List.countP_cons_of_neg (by simp [OpName.isH])]
      simp only [List.map_cons, List.sum_cons, n1, n2]
      constructor
      · rw [a]
        simp only [OpName.bodies]
        omega
      · omega
    | T k =>
      obtain ⟨start, hc⟩ := hx
      obtain ⟨t', y, e1, e2, e3, e4, e5, e6, e7, e8, -⟩ := C38_cluster k start true ['T'] 1 (holeSpace true) (particleSpace true) .spinOrbital rfl fun _ => rfl
      have e : t = t' := Except.ok.inj (hc.symm.trans e1)
      subst e
      simp only [if_true] at e7 e8
      have n1 : nLegs t.sqOp = 2 * k := by
        unfold nLegs
        rw [e7, e8, e5, e6]
        simp only [length_consecutive]
        omega
      have n2 : amplitudeLegs t.tensors = 2 * k := by
        rw [e2]
        simp only [amplitudeLegs, e3, decide_true, List.filter_cons_of_pos, List.filter_nil, List.map_cons, List.map_nil, List.sum_cons, List.sum_nil]
        rw [e5, e6]
        simp only [length_consecutive]
        omega
      have hk : 1 ≤ k := hk
      rw [List.filter_cons_of_neg (by simp [OpName.isH]), List.countP_cons_of_pos (by simp [OpName.isH])]
      simp only [List.map_cons, List.sum_cons, n1, n2]
      constructor <;> omega

theorem amplitudeLegs_sum {ts : List Tensor} : ∀ {terms : List Term}, properFactors ts = (terms.map fun t => properFactors t.tensors).sum →
    amplitudeLegs ts = (terms.map fun t => amplitudeLegs t.tensors).sum := by
  intro terms e
  rw [amplitudeLegs_eq, e]
  clear e
  induction terms with
  | nil => rfl
  | cons t terms ih =>
    rw [List.map_cons, List.sum_cons, Multiset.filter_add, Multiset.map_add, Multiset.sum_add, ih, List.map_cons, List.sum_cons, amplitudeLegs_eq]

/-- A product of a one- or two-body Hamiltonian and single-reference excitation operators: at most four operators of the amplitudes are gone. -/
theorem ContractRun.left {m : Machine} (hcanon : CanonContract m.canon) (hord : m.ord.Lawful) (hcpu : 1 ≤ m.cpus) {o : Options}
    (hn : 1 ≤ o.nProcess) {names : List OpName} (h1 : names.countP OpName.isH = 1) (h2 : 2 ≤ names.length)
    (h3 : ∀ x ∈ names, (x.isH = true → x.bodies ≤ 2) ∧ 1 ≤ x.bodies) (h4 : ∀ k, OpName.X k ∉ names) {terms : List Term}
    (ht : nestedFactors true 0 names = .ok terms) {scale : ℚ} {out : List Term} (hr : ContractRun m o terms scale out) :
    ∀ t ∈ out, 2 * (names.countP fun x => !x.isH) ≤ amplitudeLegs t.tensors ∧ amplitudeLegs t.tensors ≤ nLegs t.sqOp + 4 := by
  obtain ⟨g1, g2, -⟩ := nestedFactors_good h1.le ht
  have hw := nestedFactors_joined (fun x hx => (h3 x hx).2) ht
  have hfac := nestedFactors_isFactor ht
  obtain ⟨terms', ht', hlive, hlen'⟩ := nestedFactors_live (singleRef := true) names 0
  rw [ht] at ht'
  injection ht' with ht'
  subst ht'
  have hnil : terms ≠ [] := by
    rintro rfl
    rw [hfac.length_eq] at h2
    simp at h2
  have hnt : ∀ t ∈ terms, NiceTerm t := fun t ht => ⟨g1 t ht, hlive (fun x hx => (h3 x hx).2) t ht⟩
  have hnice := (ContractRun.fine hcanon hord hcpu hn hnil hnt g2 scale).2.2 out hr
  have hpf := ContractRun.properFactors hcanon hord hcpu hn hnil hnt g2 hr
  obtain ⟨l1, l2⟩ := factors_legs hfac h4 fun x hx => (h3 x hx).2
  have hops : productOps terms = terms.map Term.sqOp := by
    unfold productOps
    refine List.filter_eq_self.2 ?_
    intro op hop
    obtain ⟨t, ht, rfl⟩ := List.mem_map.1 hop
    simpa using (hw t ht).2
  have hlen : (productOps terms).length = names.length := by rw [hops, List.length_map, hfac.length_eq]
  have hgo := goodOps_productOps (ordinary_of_good g1 g2).ops
  obtain ⟨h, a, ha, hah, hothers⟩ := countP_one h1
  have hget : ∀ (k : Nat) (op : SqOp), (productOps terms)[k]? = some op → ∃ x t, names[k]? = some x ∧ t.sqOp = op ∧ IsFactor true x t := by
    intro k op hk
    rw [hops, List.getElem?_map] at hk
    obtain ⟨t, htk, rfl⟩ := Option.map_eq_some_iff.1 hk
    obtain ⟨hlt, hte⟩ := List.getElem?_eq_some_iff.1 htk
    have hlt' : k < names.length := by rw [hfac.length_eq]; exact hlt
    refine ⟨names[k], t, List.getElem?_eq_getElem hlt', rfl, ?_⟩
    rw [← hte]
    exact (List.forall₂_iff_get.1 hfac).2 k hlt' hlt
  have hex : OthersExcite (productOps terms) h := by
    intro k op hk hne
    obtain ⟨x, t, hx, rfl, hft⟩ := hget k op hk
    have hxh := hothers k x hx hne
    cases x with
    | H _ => simp [OpName.isH] at hxh
    | X j => exact absurd (List.mem_of_getElem? hx) (h4 j)
    | T j =>
      obtain ⟨start, hc⟩ := hft
      obtain ⟨t', y, e1, -, -, -, e5, e6, e7, e8, -⟩ := C38_cluster j start true ['T'] 1 (holeSpace true) (particleSpace true) .spinOrbital rfl fun _ => rfl
      have e : t = t' := Except.ok.inj (hc.symm.trans e1)
      subst e
      simp only [if_true] at e7 e8
      rw [e7, e8, e5, e6]
      exact ⟨fun i hi => by rw [(mem_consecutive.1 hi).1]; rfl, fun i hi => by rw [(mem_consecutive.1 hi).1]; rfl⟩
  have hlt : h < (productOps terms).length := by rw [hlen]; exact (List.getElem?_eq_some_iff.1 ha).1
  have hh := List.getElem?_eq_getElem hlt
  have hH : nLegs (productOps terms)[h] = 2 * a.bodies ∧ a.bodies ≤ 2 ∧ 2 * a.bodies ≤ ((names.filter OpName.isH).map fun x => 2 * x.bodies).sum := by
    obtain ⟨x, t, hx, he, hft⟩ := hget h _ hh
    rw [ha] at hx
    obtain rfl := Option.some.inj hx
    have hmem := List.mem_of_getElem? ha
    refine ⟨?_, (h3 _ hmem).1 hah, List.le_sum_of_mem (List.mem_map.2 ⟨a, List.mem_filter.2 ⟨hmem, hah⟩, rfl⟩)⟩
    cases a with
    | T _ => simp [OpName.isH] at hah
    | X _ => simp [OpName.isH] at hah
    | H j =>
      obtain ⟨t', y, e1, -, -, -, e5, e6, e7, e8, -⟩ := C38_hamiltonian j 0 .spinOrbital
      have e : t = t' := Except.ok.inj (Eq.trans (Eq.symm hft) e1)
      subst e
      rw [← he]
      unfold nLegs
      rw [e7, e8, e5, e6]
      simp only [length_consecutive, OpName.bodies]
      omega
  have hone : ∀ {maxCu maxOpen minOpen : Int} {c : List Tensor}, Allowed (productOps terms) maxCu maxOpen minOpen c →
      ∀ {expand : Bool} {row : Row}, row ∈ resultRows (productOps terms) expand c → ∀ {k : ℚ} {r : Term},
      canonicalizeRow m (productTensors terms) k o.hermitian row = .ok r →
      r.tensors = [] ∨ (terms.map fun t => amplitudeLegs t.tensors).sum ≤ nLegs r.sqOp + 4 := by
    intro maxCu maxOpen minOpen c hA expand row hrow k r hrr
    refine (canonicalizeRow_legs hcanon hord g1 g2 hA hrow hrr fun _ _ => true).imp_right fun e => ?_
    rw [legCount_all, legCount_all] at e
    have := row_left hgo hh hex hA hrow
    have hl1 : ((productOps terms).map nLegs).sum = ((terms.map Term.sqOp).map nLegs).sum := by rw [hops]
    rw [e]
    omega
  intro t htm
  have e := amplitudeLegs_sum (hpf t htm)
  rw [e]
  refine ⟨l2, ?_⟩
  have hP : t.tensors = [] ∨ (terms.map fun t => amplitudeLegs t.tensors).sum ≤ nLegs t.sqOp + 4 := by
    cases terms with
    | nil => exact absurd rfl hnil
    | cons first rest =>
      unfold ContractRun at hr
      simp only at hr
      rw [if_neg (by rw [hlen]; omega)] at hr
      obtain ⟨batches, all, hb, ha', hc⟩ := hr
      refine combine_all (P := fun t => t.tensors = [] ∨ ((first :: rest).map fun t => amplitudeLegs t.tensors).sum ≤ nLegs t.sqOp + 4) (fun _ _ h => h)
        (LoopRun.all (P := fun t => t.tensors = [] ∨ ((first :: rest).map fun t => amplitudeLegs t.tensors).sum ≤ nLegs t.sqOp + 4)
          (fun _ _ h => h) ?_ ha') hc t htm
      intro row hrow r hrr
      rw [List.nil_append] at hrow
      unfold ContractionsRun at hb
      split_ifs at hb with hf
      · obtain ⟨cs, -, hcs, -, hperm⟩ := connected_spec hgo hb
        obtain ⟨c, hcm, hrc⟩ := List.mem_flatMap.1 (hperm.mem_iff.1 hrow)
        exact hone (hcs c ⟨c, hcm, List.Perm.refl _⟩).1 hrc hrr
      · obtain ⟨cs, -, hcs, hperm⟩ := general_spec hgo hb
        have := hperm.flatten.mem_iff.1 hrow
        rw [← List.flatMap_def, List.mem_flatMap] at this
        obtain ⟨c, hcm, hrc⟩ := this
        exact hone ((hcs c).1 ⟨c, hcm, List.Perm.refl _⟩) hrc hrr
  exact hP.resolve_left (hnice t htm).2.factors

theorem NestedLoop.left {m : Machine} (hcanon : CanonContract m.canon) (hord : m.ord.Lawful) (hcpu : 1 ≤ m.cpus) {o : Options}
    (hn : 1 ≤ o.nProcess) {scale : ℚ} {n : Nat} (hn1 : 1 ≤ n) : ∀ {e : List (ℤ × List OpName)} {calls : List (List Term × ℚ)} {out : List Term},
    (∀ p ∈ e, p.2.countP OpName.isH = 1 ∧ p.2.length = n + 1 ∧ (∀ x ∈ p.2, (x.isH = true → x.bodies ≤ 2) ∧ 1 ≤ x.bodies) ∧ ∀ k, OpName.X k ∉ p.2) →
    NestedLoop m o true scale e calls out → ∀ t ∈ out, 2 * n ≤ amplitudeLegs t.tensors ∧ amplitudeLegs t.tensors ≤ nLegs t.sqOp + 4 := by
  intro e
  induction e with
  | nil =>
    rintro calls out _ ⟨rfl, rfl⟩
    simp
  | cons p e ih =>
    obtain ⟨c, names⟩ := p
    rintro calls out h ⟨terms, o1, calls', o2, ht, hr, hl, rfl, rfl⟩ t hmem
    obtain ⟨h1, h2, h3, h4⟩ := h (c, names) (by simp)
    replace h1 : names.countP OpName.isH = 1 := h1
    replace h2 : names.length = n + 1 := h2
    rcases List.mem_append.1 hmem with hmem | hmem
    · have hc := List.length_eq_countP_add_countP OpName.isH (l := names)
      have e : (names.countP fun x => !x.isH) = names.countP (fun a => decide ¬ a.isH = true) := List.countP_congr (by simp)
      have := ContractRun.left hcanon hord hcpu hn h1 (by omega) h3 h4 ht hr t hmem
      rw [e] at this
      omega
    · exact ih (fun q hq => h q (by simp [hq])) hl t hmem

end Dsrg
