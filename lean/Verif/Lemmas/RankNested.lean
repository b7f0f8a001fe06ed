import Verif.Lemmas.Rank
import Verif.Lemmas.Enumerate
import Verif.Props.BchValue

/-!
How many excitation operators can be contracted with one Hamiltonian.
-/

namespace Dsrg

/-- All strings but number `h` create in virtual orbitals and annihilate in core orbitals. -/
def OthersExcite (ops : List SqOp) (h : Nat) : Prop :=
  ∀ k op, ops[k]? = some op → k ≠ h → (∀ i ∈ op.upper.list, i.space.kind = .v) ∧ ∀ i ∈ op.lower.list, i.space.kind = .c

/-- An elementary contraction then takes one operator of string `h` and one operator of one other string. -/
theorem elementary_of_others {ops : List SqOp} (hg : GoodOps ops) {h : Nat} (ho : OthersExcite ops h) {maxCu : Int} {z : Tensor}
    (hz : Elementary ops maxCu z) : ∃ hop, ops[h]? = some hop ∧ (∃ x ∈ marked hop, x ∈ marked z.pair) ∧
      ∀ k k', k ≠ h → k' ≠ h → Involves ops k z → Involves ops k' z → k = k' := by
  obtain ⟨key, ⟨i, j, l, r, -, hl, hr, ⟨u, hu, v, hv, ⟨e, he, h1, h2⟩, -, rfl⟩ | ⟨v, hv, u, hu, ⟨e, he, h1, h2⟩, -, rfl⟩⟩ |
    ⟨cre, ann, hc, ha, -, -, -, hone, -, -⟩⟩ := hz
  · have hi : i = h := by
      by_contra hne
      rw [(ho i l hl hne).1 u hu] at h1
      cases e <;> simp_all [Kind.Denotes]
    subst hi
    have key : ∀ k, k ≠ i → Involves ops k (density .cumulant [u] [v]) → ownerL ops v = k := by
      rintro k hk ⟨op, hop, ⟨w, hw, hwo⟩ | ⟨w, hw, hwo⟩⟩
      · obtain rfl : w = u := by simpa [density, Tensor.upper] using hw
        exact absurd ((hg.ownerU_eq hop hwo).symm.trans (hg.ownerU_eq hl hu)) hk
      · obtain rfl : w = v := by simpa [density, Tensor.lower] using hw
        exact hg.ownerL_eq hop hwo
    exact ⟨l, hl, ⟨(true, u), by simp [marked, hu], by simp [marked, density]⟩, fun k k' hk hk' a b => (key k hk a).symm.trans (key k' hk' b)⟩
  · have hi : i = h := by
      by_contra hne
      rw [(ho i l hl hne).2 v hv] at h2
      cases e <;> simp_all [Kind.Denotes]
    subst hi
    have key : ∀ k, k ≠ i → Involves ops k (density .hole [u] [v]) → ownerU ops u = k := by
      rintro k hk ⟨op, hop, ⟨w, hw, hwo⟩ | ⟨w, hw, hwo⟩⟩
      · obtain rfl : w = u := by simpa [density, Tensor.upper] using hw
        exact hg.ownerU_eq hop hwo
      · obtain rfl : w = v := by simpa [density, Tensor.lower] using hw
        exact absurd ((hg.ownerL_eq hop hwo).symm.trans (hg.ownerL_eq hl hv)) hk
    exact ⟨l, hl, ⟨(false, v), by simp [marked, hv], by simp [marked, density]⟩, fun k k' hk hk' a b => (key k hk a).symm.trans (key k' hk' b)⟩
  · refine absurd ⟨h, ?_⟩ hone
    intro x hx
    by_contra hne
    rcases List.mem_append.1 hx with hx | hx
    · obtain ⟨op, h1, h2, h3, h4⟩ := mem_cumulantLegs (hc.subset hx)
      exact h4 ((ho x.1 op h1 hne).1 _ h2)
    · obtain ⟨op, h1, h2, h3, h4⟩ := mem_cumulantLegs (ha.subset hx)
      exact h3 ((ho x.1 op h1 hne).2 _ h2)

/-- If all strings are connected, there are at most as many other strings as string `h` has operators. -/
theorem others_le {ops : List SqOp} (hg : GoodOps ops) {h : Nat} {hop : SqOp} (hh : ops[h]? = some hop) (ho : OthersExcite ops h)
    {maxCu maxOpen minOpen : Int} {c : List Tensor} (hA : Allowed ops maxCu maxOpen minOpen c) (hC : ConnectsAll ops c) :
    ops.length ≤ nLegs hop + 1 := by
  classical
  have hlt : h < ops.length := (List.getElem?_eq_some_iff.1 hh).1
  have step : ∀ k, k < ops.length → k ≠ h → ∃ x, x ∈ marked hop ∧ ∃ z ∈ c, Involves ops k z ∧ x ∈ marked z.pair := by
    intro k hk hne
    obtain ⟨z, hz, ⟨k', hk', h1⟩, -⟩ := hC {k} ⟨k, hk, by simp⟩ ⟨h, hlt, by simpa using fun e : h = k => hne e.symm⟩
    obtain rfl : k' = k := by simpa using hk'
    obtain ⟨hop', h2, h3, -⟩ := elementary_of_others hg ho (hA.elementary z hz)
    rw [hh] at h2
    obtain rfl := Option.some.inj h2
    obtain ⟨x, hx, hxz⟩ := h3
    exact ⟨x, hx, z, hz, h1, hxz⟩
  haveI : Nonempty Index := ⟨⟨⟨.g, false⟩, 0⟩⟩
  choose! x hx hz using step
  have hcard : ((Finset.range ops.length).erase h).card ≤ (marked hop).toFinset.card := by
    refine Finset.card_le_card_of_injOn x ?_ ?_
    · intro k hk
      have hk := Finset.mem_erase.1 hk
      simpa using hx k (Finset.mem_range.1 hk.2) hk.1
    · intro k hk k' hk' e
      have hk := Finset.mem_erase.1 hk
      have hk' := Finset.mem_erase.1 hk'
      have hkl := Finset.mem_range.1 hk.2
      have hkl' := Finset.mem_range.1 hk'.2
      obtain ⟨z, hzc, hinv, a⟩ := hz k hkl hk.1
      obtain ⟨z', hzc', hinv', b⟩ := hz k' hkl' hk'.1
      have hzz : z = z' := by
        by_contra hne
        haveI : Std.Symm ShareNothing := ⟨fun _ _ h => h.symm⟩
        have hs : ShareNothing z z' := hA.share.forall hzc hzc' hne
        rw [← e] at b
        unfold marked at a b
        rcases List.mem_append.1 a with a | a
        · obtain ⟨i, hi, hix⟩ := List.mem_map.1 a
          rw [← hix] at b
          exact hs.1 i hi (by simpa using b)
        · obtain ⟨i, hi, hix⟩ := List.mem_map.1 a
          rw [← hix] at b
          exact hs.2 i hi (by simpa using b)
      subst hzz
      obtain ⟨-, -, -, h3⟩ := elementary_of_others hg ho (hA.elementary _ hzc)
      exact h3 k k' hk.1 hk'.1 hinv hinv'
  rw [Finset.card_erase_of_mem (by simpa using hlt), Finset.card_range] at hcard
  have : (marked hop).length = nLegs hop := by
    unfold marked nLegs
    simp
  have := List.toFinset_card_le (marked hop)
  omega

theorem countP_one {α : Type} {p : α → Bool} : ∀ {l : List α}, l.countP p = 1 →
    ∃ (h : Nat) (a : α), l[h]? = some a ∧ p a = true ∧ ∀ (k : Nat) (b : α), l[k]? = some b → k ≠ h → p b = false := by
  intro l
  induction l with
  | nil => intro h; simp at h
  | cons a l ih =>
    intro h
    by_cases ha : p a = true
    · rw [List.countP_cons_of_pos ha] at h
      have h0 : l.countP p = 0 := by omega
      rw [List.countP_eq_zero] at h0
      refine ⟨0, a, rfl, ha, ?_⟩
      intro k b hb hk
      cases k with
      | zero => exact absurd rfl hk
      | succ k => exact by simpa using h0 b (List.mem_of_getElem? (by simpa using hb))
    · rw [List.countP_cons_of_neg ha] at h
      obtain ⟨i, b, h1, h2, h3⟩ := ih h
      refine ⟨i + 1, b, by simpa using h1, h2, ?_⟩
      intro k b hb hk
      cases k with
      | zero =>
        obtain rfl : a = b := by simpa using hb
        simpa using ha
      | succ k => exact h3 k b (by simpa using hb) (by omega)

theorem nestedWords_noX {levels : List Nat} : ∀ {n : Nat} {w : List OpName},
    w ∈ (nestedWords [OpName.H 1, OpName.H 2] (ampSymbols levels false) n).map Prod.snd → ∀ k, OpName.X k ∉ w := by
  intro n
  induction n with
  | zero =>
    intro w hw
    simp only [nestedWords, List.map_cons, List.map_nil, List.mem_cons, List.not_mem_nil, or_false] at hw
    rcases hw with rfl | rfl <;> simp
  | succ n ih =>
    intro w hw
    obtain ⟨q, hq, rfl⟩ := List.mem_map.1 hw
    obtain ⟨p, hp, hq⟩ := List.mem_flatMap.1 hq
    obtain ⟨a, ha, hq⟩ := List.mem_flatMap.1 hq
    have h3 := ih (List.mem_map_of_mem hp)
    obtain ⟨j, hj⟩ : ∃ j, a.2 = OpName.T j := by
      unfold ampSymbols at ha
      rcases List.mem_append.1 ha with ha | ha
      · obtain ⟨k, hk, rfl⟩ := List.mem_map.1 ha
        exact ⟨k, rfl⟩
      · simp at ha
    simp only [List.mem_cons, List.not_mem_nil, or_false] at hq
    rcases hq with rfl | rfl <;> simp [hj, h3]

/-- A connected product of a one- or two-body Hamiltonian and more than four single-reference excitation operators has no terms. -/
theorem ContractRun.empty {m : Machine} {o : Options} (hf : o.forCommutator = true)
    {names : List OpName} (h1 : names.countP OpName.isH = 1) (h2 : 6 ≤ names.length)
    (h3 : ∀ x ∈ names, (x.isH = true → x.bodies ≤ 2) ∧ 1 ≤ x.bodies) (h4 : ∀ k, OpName.X k ∉ names) {terms : List Term}
    (ht : nestedFactors true 0 names = .ok terms) {scale : ℚ} {out : List Term} (hr : ContractRun m o terms scale out) : out = [] := by
  obtain ⟨g1, g2, -⟩ := nestedFactors_good h1.le ht
  have hw := nestedFactors_joined (fun x hx => (h3 x hx).2) ht
  have hfac := nestedFactors_isFactor ht
  have hops : productOps terms = terms.map Term.sqOp := by
    unfold productOps
    refine List.filter_eq_self.2 ?_
    intro op hop
    obtain ⟨t, ht, rfl⟩ := List.mem_map.1 hop
    simpa using (hw t ht).2
  have hlen : (productOps terms).length = names.length := by rw [hops, List.length_map, hfac.length_eq]
  have hgo := goodOps_productOps (ordinary_of_good g1 g2).ops
  obtain ⟨h, a, ha, hah, hothers⟩ := countP_one h1
  have hget : ∀ (k : Nat) (op : SqOp), (productOps terms)[k]? = some op → ∃ x t, names[k]? = some x ∧ t.sqOp = op ∧ IsFactor true x t := by
    intro k op hk
    rw [hops, List.getElem?_map] at hk
    obtain ⟨t, htk, rfl⟩ := Option.map_eq_some_iff.1 hk
    obtain ⟨hlt, hte⟩ := List.getElem?_eq_some_iff.1 htk
    have hlt' : k < names.length := by rw [hfac.length_eq]; exact hlt
    refine ⟨names[k], t, List.getElem?_eq_getElem hlt', rfl, ?_⟩
    rw [← hte]
    exact (List.forall₂_iff_get.1 hfac).2 k hlt' hlt
  have hex : OthersExcite (productOps terms) h := by
    intro k op hk hne
    obtain ⟨x, t, hx, rfl, hft⟩ := hget k op hk
    have hxh := hothers k x hx hne
    cases x with
    | H _ => simp [OpName.isH] at hxh
    | X j => exact absurd (List.mem_of_getElem? hx) (h4 j)
    | T j =>
      obtain ⟨start, hc⟩ := hft
      obtain ⟨t', y, e1, -, -, -, e5, e6, e7, e8, -⟩ := C38_cluster j start true ['T'] 1 (holeSpace true) (particleSpace true) .spinOrbital rfl fun _ => rfl
      have e : t = t' := Except.ok.inj (hc.symm.trans e1)
      subst e
      simp only [if_true] at e7 e8
      rw [e7, e8, e5, e6]
      exact ⟨fun i hi => by rw [(mem_consecutive.1 hi).1]; rfl, fun i hi => by rw [(mem_consecutive.1 hi).1]; rfl⟩
  have hnone : ∀ {maxCu maxOpen minOpen : Int} {c : List Tensor}, Allowed (productOps terms) maxCu maxOpen minOpen c →
      ConnectsAll (productOps terms) c → False := by
    intro maxCu maxOpen minOpen c hA hC
    have hlt : h < (productOps terms).length := by rw [hlen]; exact (List.getElem?_eq_some_iff.1 ha).1
    have hh := List.getElem?_eq_getElem hlt
    have := others_le hgo hh hex hA hC
    obtain ⟨x, t, hx, he, hft⟩ := hget h _ hh
    rw [ha] at hx
    obtain rfl := Option.some.inj hx
    cases a with
    | T _ => simp [OpName.isH] at hah
    | X _ => simp [OpName.isH] at hah
    | H j =>
      have hj : j ≤ 2 := (h3 _ (List.mem_of_getElem? ha)).1 rfl
      obtain ⟨t', y, e1, -, -, -, e5, e6, e7, e8, -⟩ := C38_hamiltonian j 0 .spinOrbital
      have e : t = t' := Except.ok.inj (Eq.trans (Eq.symm hft) e1)
      subst e
      rw [← he] at this
      unfold nLegs at this
      rw [e7, e8, e5, e6] at this
      simp only [length_consecutive] at this
      omega
  cases terms with
  | nil => rw [hfac.length_eq] at h2; simp at h2
  | cons first rest =>
    unfold ContractRun at hr
    simp only at hr
    rw [if_neg (by rw [hlen]; omega)] at hr
    obtain ⟨batches, all, hb, ha', hc⟩ := hr
    unfold ContractionsRun at hb
    rw [if_pos hf] at hb
    obtain ⟨cs, -, hcs, -, hperm⟩ := connected_spec hgo hb
    refine List.eq_nil_iff_forall_not_mem.2 fun t ht => ?_
    refine combine_all (P := fun _ => False) (fun _ _ h => h) (LoopRun.all (P := fun _ => False) (fun _ _ h => h) ?_ ha') hc t ht
    intro row hrow r hrr
    rw [List.nil_append] at hrow
    obtain ⟨c, hcm, hrc⟩ := List.mem_flatMap.1 (hperm.mem_iff.1 hrow)
    obtain ⟨hA, hC, -⟩ := hcs c ⟨c, hcm, List.Perm.refl _⟩
    exact hnone hA hC

theorem NestedLoop.empty {m : Machine} {o : Options} (hf : o.forCommutator = true)
    {scale : ℚ} : ∀ {e : List (ℤ × List OpName)} {calls : List (List Term × ℚ)} {out : List Term},
    (∀ p ∈ e, p.2.countP OpName.isH = 1 ∧ 6 ≤ p.2.length ∧ (∀ x ∈ p.2, (x.isH = true → x.bodies ≤ 2) ∧ 1 ≤ x.bodies) ∧ ∀ k, OpName.X k ∉ p.2) →
    NestedLoop m o true scale e calls out → out = [] := by
  intro e
  induction e with
  | nil =>
    rintro calls out _ ⟨rfl, rfl⟩
    rfl
  | cons p e ih =>
    obtain ⟨c, names⟩ := p
    rintro calls out h ⟨terms, o1, calls', o2, ht, hr, hl, rfl, rfl⟩
    obtain ⟨h1, h2, h3, h4⟩ := h (c, names) (by simp)
    rw [ContractRun.empty hf h1 h2 h3 h4 ht hr, ih (fun q hq => h q (by simp [hq])) hl]
    rfl

end Dsrg
