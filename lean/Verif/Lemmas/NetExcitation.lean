import Verif.Lemmas.Rank
import Verif.Lemmas.ProperFactors
import Verif.Spec.NetExcitation

/-!
Commutators keep the excitation.
-/

namespace Dsrg

theorem Term.simplify_legs {ord : SetOrder} (hord : ord.Lawful) {t t' : Term} {removeActive : Bool} (hw : t.WF)
    (hdiag : t.diag ⊆ diagonalOf t.tensors t.sqOp) (hp : Paired t.tensors t.sqOp)
    (h : t.simplify ord true removeActive = .ok t') (p : Bool → Space → Bool) : t'.isVoid = true ∨ legCount p t'.sqOp = legCount p t.sqOp := by
  classical
  unfold Term.simplify at h
  obtain ⟨cu, hcu, h⟩ := bind_ok h
  obtain ⟨de, hde, h⟩ := bind_ok h
  obtain ⟨st, hlo, h⟩ := bind_ok h
  obtain ⟨op, hop, h⟩ := bind_ok h
  obtain ⟨-, -, -, -, -, -, hid, -⟩ := Term.simplify_stage hord hw hdiag hp hcu hde hlo
  by_cases hv : (removeActive && de.2.any (allActiveAmplitude st.1)) = true
  · rw [if_pos hv] at h
    injection h with h
    subst h
    exact Or.inl (by simp [Term.isVoid])
  · rw [if_neg hv] at h
    obtain ⟨ts, hts, h⟩ := bind_ok h
    injection h with h
    subst h
    obtain ⟨rfl, -⟩ := replaceSqOp_ok (realizes_lookupIn _ _) hop
    have hsame : ∀ i ∈ t.sqOp.upper.list ++ t.sqOp.lower.list, st.1 i = i := by
      intro i hi
      have hdis : ∀ x ∈ t.tensors, x.isDensity = true → i ∉ x.pair.indices := by
        intro x hx hd hix
        have ho := hp.outer
        unfold outerList at ho
        exact (List.nodup_append.1 ho).2.2 i hi i (List.mem_flatMap.2 ⟨x, List.mem_filter.2 ⟨hx, hd⟩, hix⟩) rfl
      rw [hid i ?_ ?_]
      · have hE := hp.merged
        have hinit : Apart t.indicesSet (Merged t.tensors) id t.nextNum :=
          ⟨fun i _ j _ e => Or.inl e, fun i hi => hw.fresh i hi, fun i hi => hw.fresh i hi⟩
        obtain ⟨-, c2, -⟩ := downgradeCumulants_shape hE t.tensors _ cu hinit
          (hp.apart.imp fun hab ha hb => hab (by simp [Tensor.isDensity, ha]) (by simp [Tensor.isDensity, hb])) hcu
        exact (c2 i fun x hx hc _ => hdis x hx (by simp [Tensor.isDensity, hc])).1
      · intro x hx hd
        refine hdis x hx ?_
        rcases hd with hd | hd <;> simp [Tensor.isDensity, hd]
      · intro hi'
        exact hp.diag (hdiag hi') (List.mem_append_left _ hi)
    refine Or.inr (legCount_congr ?_ ?_)
    · show (t.sqOp.upper.list.map st.1).map Index.space = _
      rw [List.map_map]
      exact List.map_congr_left fun i hi => by simp [hsame i (List.mem_append_left _ hi)]
    · show (t.sqOp.lower.list.map st.1).map Index.space = _
      rw [List.map_map]
      exact List.map_congr_left fun i hi => by simp [hsame i (List.mem_append_right _ hi)]

theorem Term.canonicalizeSympy_legs {canon : List Nat → List (Nat × Nat) → List SlotGroup → Option (List Nat)} (hcanon : CanonContract canon)
    {ord : SetOrder} (hord : ord.Lawful) {t r : Term} {removeActive hermitian : Bool} (hw : t.WF)
    (hdiag : t.diag ⊆ diagonalOf t.tensors t.sqOp) (hp : Paired t.tensors t.sqOp)
    (hbal : t.sqOp.upper.list.length = t.sqOp.lower.list.length) (hkind : ∀ x ∈ t.tensors, UsualKind x)
    (hty : ∀ x ∈ t.tensors, x.upper.ty = .spinOrbital) (hop : t.sqOp.upper.ty = .spinOrbital)
    (hr : t.canonicalizeSympy canon ord true removeActive hermitian = .ok r) (p : Bool → Space → Bool) : r.tensors = [] ∨ legCount p r.sqOp = legCount p t.sqOp := by
  rw [canonicalizeSympy_eq] at hr
  obtain ⟨s, hs, hr⟩ := bind_ok hr
  have hjs := Term.simplify_legs hord hw hdiag hp hs p
  obtain ⟨-, hb, -⟩ := Term.simplify_tidy hord hw hdiag hp hs
  obtain ⟨f, hf, hfop⟩ := Term.simplify_origin hs
  by_cases hv : s.isVoid = true
  · unfold sympyTail at hr
    rw [if_pos hv] at hr
    unfold Term.void at hr
    obtain ⟨-, -, -, rfl⟩ := Term.make_ok.1 hr
    exact Or.inl rfl
  · have hv : s.isVoid = false := by simpa using hv
    have hops : s.sqOp.upper.ty = .spinOrbital ∧ s.sqOp.lower.ty = .spinOrbital := by
      rcases hfop with e | ⟨e, -⟩ <;> rw [e] <;> exact ⟨hop, hop⟩
    refine Or.inr (Eq.trans (sympyTail_back hcanon (Term.simplify_shape hw.set_sub hs).1 (by rw [hops.1]; rfl) ?_ ?_ (hops.2.trans hops.1.symm) (hb hbal) ?_ hv hr).legCount (hjs.resolve_left (by simp [hv])))
    · intro x hx
      obtain ⟨y, hy, -, rfl⟩ := hf x hx
      exact (hty y hy).trans hops.1.symm
    · intro x hx
      obtain ⟨y, hy, -, rfl⟩ := hf x hx
      rfl
    · intro x hx y hy e
      obtain ⟨x', hx', -, rfl⟩ := hf x hx
      obtain ⟨y', hy', -, rfl⟩ := hf y hy
      exact (hkind x' hx').consistent (hkind y' hy') e

theorem canonicalizeRow_legs {m : Machine} (hcanon : CanonContract m.canon) (hord : m.ord.Lawful) {terms : List Term}
    (h : ∀ t ∈ terms, GoodTerm t) (hd : terms.Pairwise DisjointLabels) {maxCu maxOpen minOpen : Int}
    {expand : Bool} {c : List Tensor} (hA : Allowed (productOps terms) maxCu maxOpen minOpen c) {row : Row}
    (hrow : row ∈ resultRows (productOps terms) expand c) {k : ℚ} {hermitian : Bool} {r : Term}
    (hr : canonicalizeRow m (productTensors terms) k hermitian row = .ok r) (p : Bool → Space → Bool) : r.tensors = [] ∨ legCount p r.sqOp = legCount p row.2.2 := by
  have hof := ordinary_of_good h hd
  have hk := contractible_of_good h hd
  have hden := resultRows_density hA row hrow
  unfold canonicalizeRow at hr
  obtain ⟨t, ht, hr⟩ := bind_ok hr
  have hw := Term.wf_of_make ht
  obtain ⟨hty, -, -, rfl⟩ := Term.make_ok.1 ht
  have hopt : row.2.2.upper.ty = .spinOrbital := by
    unfold resultRows at hrow
    obtain ⟨e, -, rfl⟩ := List.mem_map.1 hrow
    rfl
  have hperm := (sortTensors_perm (productTensors terms ++ row.2.1)).symm
  refine Term.canonicalizeSympy_legs hcanon hord hw (by
      refine (Finset.Subset.antisymm_iff.1 ?_).1
      ext i
      simp only [mem_diagonalOf, (sortTensors_perm _).mem_iff]) ((row_paired h hd hA hrow).perm hperm) (row_balanced hof hk hA hrow) ?_ ?_ ?_ hr p
  · intro x hx
    rcases List.mem_append.1 (hperm.mem_iff.2 hx) with hx | hx
    · obtain ⟨t, ht, hx⟩ := List.mem_flatMap.1 hx
      exact (h t ht).kind x hx
    · exact Or.inl ⟨(hden x hx).cls, (hden x hx).name, (hden x hx).priority⟩
  · intro x hx
    exact (hty x (hperm.mem_iff.2 hx)).trans hopt
  · exact hopt

/-! ### Contractions -/

/-- The string has the excitation of the other two together. -/
def Balanced (a b op : SqOp) : Prop :=
  legCount (lowers true) op + (legCount (lowers false) a + legCount (lowers false) b) =
    legCount (lowers false) op + (legCount (lowers true) a + legCount (lowers true) b)

theorem elementary_balance {a b : SqOp} (ha : legCount neither a = 0) (hb : legCount neither b = 0) {maxCu : Int} {z : Tensor}
    (h : Elementary [a, b] maxCu z) : legCount (lowers true) z.pair = legCount (lowers false) z.pair := by
  have hsp : ∀ (op : SqOp), legCount neither op = 0 → ∀ i, i ∈ op.upper.list ∨ i ∈ op.lower.list → i.space.kind = .c ∨ i.space.kind = .v := by
    intro op ho i hi
    obtain ⟨h1, h2⟩ := legCount_zero.1 ho
    have h3 : neither true i.space = false := by
      rcases hi with hi | hi
      · exact h1 i hi
      · exact h2 i hi
    unfold neither at h3
    simp only [decide_eq_false_iff_not] at h3
    tauto
  have hab : ∀ op ∈ [a, b], legCount neither op = 0 := by simpa using ⟨ha, hb⟩
  obtain ⟨key, ⟨i, j, l, r, -, hl, hr, ⟨u, hu, v, hv, ⟨e, he, h1, h2⟩, -, rfl⟩ | ⟨v, hv, u, hu, ⟨e, he, h1, h2⟩, -, rfl⟩⟩ |
    ⟨cre, ann, hc, -, -, h2, -, -, -, rfl⟩⟩ := h
  · have ku := denotes_core (hsp l (hab l (List.mem_of_getElem? hl)) u (Or.inl hu)) he h1
    have kv := denotes_core (hsp r (hab r (List.mem_of_getElem? hr)) v (Or.inr hv)) he h2
    show ([(true, u), (false, v)] : List (Bool × Index)).countP (fun x => lowers true x.1 x.2.space) =
      ([(true, u), (false, v)] : List (Bool × Index)).countP fun x => lowers false x.1 x.2.space
    simp [lowers, ku, kv]
  · have ku := denotes_virt (hsp r (hab r (List.mem_of_getElem? hr)) u (Or.inl hu)) he h1
    have kv := denotes_virt (hsp l (hab l (List.mem_of_getElem? hl)) v (Or.inr hv)) he h2
    show ([(true, u), (false, v)] : List (Bool × Index)).countP (fun x => lowers true x.1 x.2.space) =
      ([(true, u), (false, v)] : List (Bool × Index)).countP fun x => lowers false x.1 x.2.space
    simp [lowers, ku, kv]
  · exfalso
    obtain ⟨x, hx⟩ := List.exists_mem_of_length_pos (show 0 < cre.length by omega)
    have hx := hc.subset hx
    unfold cumulantLegs at hx
    obtain ⟨op, hop, hx⟩ := List.mem_flatMap.1 hx
    obtain ⟨i, hi, rfl⟩ := List.mem_map.1 hx
    obtain ⟨hi, hk⟩ := List.mem_filter.1 hi
    have := hsp op.1 (hab op.1 (List.mem_of_getElem? (List.mem_zipIdx_iff_getElem?.1 hop))) i (Or.inl hi)
    simp only [decide_eq_true_eq] at hk
    tauto

theorem row_balance {a b : Term} (ha : GoodTerm a) (hb : GoodTerm b) (hd : DisjointLabels a b) (hops : productOps [a, b] = [a.sqOp, b.sqOp])
    (na : Dsrg.legCount neither a.sqOp = 0) (nb : Dsrg.legCount neither b.sqOp = 0) {maxCu maxOpen minOpen : Int}
    {expand : Bool} {c : List Tensor} (hA : Allowed (productOps [a, b]) maxCu maxOpen minOpen c) {row : Row}
    (hrow : row ∈ resultRows (productOps [a, b]) expand c) :
    Balanced a.sqOp b.sqOp row.2.2 := by
  have h : ∀ t ∈ [a, b], GoodTerm t := by simpa using ⟨ha, hb⟩
  have hd : [a, b].Pairwise DisjointLabels := by simpa using hd
  have hl := (conserves (goodOps_productOps (ordinary_of_good h hd).ops) hA expand row hrow).labels
  have h1 : ∀ p : Bool → Space → Bool, ((row.2.1.map Tensor.pair).map (legCount p)).sum + legCount p row.2.2 = legCount p a.sqOp + legCount p b.sqOp := by
    intro p
    have h1 := hl.countP_eq (fun x => p x.1 x.2.space)
    rw [List.countP_append, List.countP_flatMap] at h1
    have h3 : (productWord (productOps [a, b])).countP (fun x => p x.1 x.2.space) = ((productOps [a, b]).map (legCount p)).sum := by
      unfold productWord
      rw [List.countP_flatMap]
      congr 1
      exact List.map_congr_left fun op _ => stringWord_count p op
    rw [h3, hops] at h1
    simpa [legCount, Function.comp_def] using h1
  have h2 : ((row.2.1.map Tensor.pair).map (legCount (lowers true))).sum = ((row.2.1.map Tensor.pair).map (legCount (lowers false))).sum := by
    congr 1
    refine List.map_congr_left fun q hq => ?_
    obtain ⟨d, hd, rfl⟩ := List.mem_map.1 hq
    obtain ⟨z, hz, e⟩ := row_pairs row hrow d hd
    have hel := hA.elementary z hz
    rw [hops] at hel
    rw [e.1]
    exact elementary_balance na nb hel
  unfold Balanced
  have := h1 (lowers true)
  have := h1 (lowers false)
  omega

theorem ContractRun.balance {m : Machine} (hcanon : CanonContract m.canon) (hord : m.ord.Lawful) (hcpu : 1 ≤ m.cpus) {o : Options}
    (hn : 1 ≤ o.nProcess) (hf : o.forCommutator = true) {a b : Term} (ha : NiceTerm a) (hb : NiceTerm b) (hd : DisjointLabels a b)
    (hna : a.sqOp.size ≠ 0) (hnb : b.sqOp.size ≠ 0) (na : Dsrg.legCount neither a.sqOp = 0) (nb : Dsrg.legCount neither b.sqOp = 0) {scale : ℚ} {out : List Term}
    (hr : ContractRun m o [a, b] scale out) : ∀ t ∈ out,
      Balanced a.sqOp b.sqOp t.sqOp := by
  have hnice := (ContractRun.fine hcanon hord hcpu hn (by simp) (by simpa using ⟨ha, hb⟩) (by simpa using hd) scale).2.2 out hr
  have hops : productOps [a, b] = [a.sqOp, b.sqOp] := by
    unfold productOps
    refine List.filter_eq_self.2 ?_
    intro op hop
    simp only [List.map_cons, List.map_nil, List.mem_cons, List.not_mem_nil, or_false] at hop
    rcases hop with rfl | rfl
    · simpa using hna
    · simpa using hnb
  have h : ∀ t ∈ [a, b], GoodTerm t := by simpa using ⟨ha.1, hb.1⟩
  have hd' : [a, b].Pairwise DisjointLabels := by simpa using hd
  unfold ContractRun at hr
  simp only at hr
  rw [if_neg (by rw [hops]; simp)] at hr
  obtain ⟨batches, all, hb', ha', hc⟩ := hr
  have ho := ordinary_of_good h hd'
  unfold ContractionsRun at hb'
  rw [if_pos hf] at hb'
  obtain ⟨cs, -, hcs, -, hperm⟩ := connected_spec (goodOps_productOps ho.ops) hb'
  intro t ht
  refine (combine_all (P := fun t => t.tensors = [] ∨ Balanced a.sqOp b.sqOp t.sqOp) (fun _ _ h => h)
    (LoopRun.all (P := fun t => t.tensors = [] ∨ Balanced a.sqOp b.sqOp t.sqOp) (fun _ _ h => h) ?_ ha') hc t ht).resolve_left
    (hnice t ht).2.factors
  intro row hrow r hrr
  rw [List.nil_append] at hrow
  obtain ⟨c, hcm, hrc⟩ := List.mem_flatMap.1 (hperm.mem_iff.1 hrow)
  obtain ⟨hA, -, -⟩ := hcs c ⟨c, hcm, List.Perm.refl _⟩
  have h1 := row_balance ha.1 hb.1 hd hops na nb hA hrc
  rcases canonicalizeRow_legs hcanon hord h hd' hA hrc hrr (lowers true) with e | e
  · exact Or.inl e
  · rcases canonicalizeRow_legs hcanon hord h hd' hA hrc hrr (lowers false) with e' | e'
    · exact Or.inl e'
    · right
      unfold Balanced at h1 ⊢
      omega

theorem CommutatorRun.balance {m : Machine} (hcanon : CanonContract m.canon) (hord : m.ord.Lawful) (hcpu : 1 ≤ m.cpus) {o : Options}
    (hn : 1 ≤ o.nProcess) (hf : o.forCommutator = true) {a b : Term} (ha : NiceTerm a) (hb : NiceTerm b) (hd : DisjointLabels a b)
    (na : Dsrg.legCount neither a.sqOp = 0) (nb : Dsrg.legCount neither b.sqOp = 0) {scale : ℚ} {out : List Term}
    (hr : CommutatorRun m o a b scale out) : ∀ t ∈ out,
      Balanced a.sqOp b.sqOp t.sqOp := by
  unfold CommutatorRun at hr
  split_ifs at hr with h0
  · subst hr; simp
  · obtain ⟨o1, o2, r1, r2, hc⟩ := hr
    have hne : a.sqOp.size ≠ 0 ∧ b.sqOp.size ≠ 0 := by
      push Not at h0
      exact h0 hf
    refine combine_all (P := fun t => Balanced a.sqOp b.sqOp t.sqOp) (fun _ _ h => h) ?_ hc
    intro t ht
    rcases List.mem_append.1 ht with ht | ht
    · exact ContractRun.balance hcanon hord hcpu hn hf ha hb hd hne.1 hne.2 na nb r1 t ht
    · have := ContractRun.balance hcanon hord hcpu hn hf hb ha (Disjoint.symm hd) hne.2 hne.1 nb na r2 t ht
      unfold Balanced at this ⊢
      omega

theorem legCount_sum (op : SqOp) : legCount neither op + legCount (lowers true) op + legCount (lowers false) op = nLegs op := by
  have key : ∀ l : List (Bool × Index), l.countP (fun x => neither x.1 x.2.space) + l.countP (fun x => lowers true x.1 x.2.space) +
      l.countP (fun x => lowers false x.1 x.2.space) = l.length := by
    intro l
    induction l with
    | nil => rfl
    | cons x l ih =>
      rw [List.countP_cons, List.countP_cons, List.countP_cons, List.length_cons]
      obtain ⟨cre, i⟩ := x
      have : (if neither cre i.space = true then 1 else 0) + (if lowers true cre i.space = true then 1 else 0) +
          (if lowers false cre i.space = true then 1 else 0) = 1 := by
        unfold neither lowers
        cases cre <;> cases i.space.kind <;> simp
      simp only at this ⊢
      omega
  rw [← legCount_all]
  have := key (marked op)
  unfold legCount
  rw [this]
  simp

theorem nRaising_eq (op : SqOp) : nRaising op = legCount (lowers false) op := by
  unfold nRaising legCount marked
  rw [List.countP_append, List.countP_map, List.countP_map]
  rfl

/-! ### Amplitudes -/

theorem amplitudeLegs_eq (ts : List Tensor) :
    amplitudeLegs ts = (((properFactors ts).filter fun k => k.1 = .cluster).map fun k => k.2.2).sum := by
  unfold amplitudeLegs
  rw [properFactors_eq, Multiset.filter_coe, Multiset.map_coe, Multiset.sum_coe, List.filter_map, List.map_map, List.filter_filter]
  congr 1
  have : (ts.filter fun x => decide (x.cls = .cluster)) =
      ts.filter fun a => ((fun k : TCls × PyStr × Nat => decide (k.1 = TCls.cluster)) ∘ Tensor.sort) a && a.proper := by
    refine List.filter_congr fun x _ => ?_
    by_cases e : x.cls = .cluster <;> simp [Tensor.sort, Tensor.proper, e]
  rw [this]
  rfl

theorem amplitudeLegs_add {ts a b : List Tensor} (e : properFactors ts = properFactors a + properFactors b) :
    amplitudeLegs ts = amplitudeLegs a + amplitudeLegs b := by
  rw [amplitudeLegs_eq, amplitudeLegs_eq, amplitudeLegs_eq, e, Multiset.filter_add, Multiset.map_add, Multiset.sum_add]

theorem amplitudeLegs_congr {a b : List Tensor} (e : properFactors a = properFactors b) : amplitudeLegs a = amplitudeLegs b := by
  rw [amplitudeLegs_eq, amplitudeLegs_eq, e]

theorem amplitudeLegs_zero {h : Nat} {ts : List Tensor} (ho : OfOrder h 0 ts) : amplitudeLegs ts = 0 := by
  unfold amplitudeLegs
  rw [List.length_eq_zero_iff.1 ho.amplitude]
  rfl

/-- A term of level `n`. -/
structure Excited (n : Nat) (t : Term) : Prop where
  none : legCount neither t.sqOp = 0
  many : 2 * n ≤ amplitudeLegs t.tensors
  net : amplitudeLegs t.tensors + legCount (lowers true) t.sqOp ≤ legCount (lowers false) t.sqOp + 4

theorem Excited.step {m : Machine} (hcanon : CanonContract m.canon) (hord : m.ord.Lawful) (hcpu : 1 ≤ m.cpus) {o : Options}
    (hn : 1 ≤ o.nProcess) (hf : o.forCommutator = true) {a b : Term} (ha : NiceTerm a) (hb : NiceTerm b) (hd : DisjointLabels a b) {n : Nat}
    (he : Excited n a) {k start : Nat} (hk : 1 ≤ k) {c : ℚ}
    (hc : clusterOperator k start true ['T'] c (holeSpace true) (particleSpace true) .spinOrbital = .ok b) {scale : ℚ} {out : List Term}
    (hr : CommutatorRun m o a b scale out) : ∀ t ∈ out, Excited (n + 1) t := by
  obtain ⟨b1, b2⟩ := cluster_legs hc
  have hlegs : nLegs b.sqOp = 2 * k := by
    obtain ⟨-, -, -, l1, l2, -⟩ := cluster_good hc
    unfold nLegs
    omega
  have hamp : amplitudeLegs b.tensors = 2 * k := by
    obtain ⟨t', x, h1, h2, h3, h4, h5, h6, -⟩ := C38_cluster k start true ['T'] c (holeSpace true) (particleSpace true) .spinOrbital rfl fun _ => rfl
    rw [hc] at h1
    injection h1 with h1
    subst h1
    rw [h2]
    simp [amplitudeLegs, h3, h5, h6, consecutive]
    omega
  have hs := legCount_sum b.sqOp
  intro t ht
  have k1 := CommutatorRun.legCount hcanon hord hf ha.1 hb.1 hd neither (W := 0) (fun _ _ _ => Nat.zero_le _) (fun _ _ _ => Nat.zero_le _) hr t ht
  have k2 := CommutatorRun.balance hcanon hord hcpu hn hf ha hb hd he.none b1 hr t ht
  unfold Balanced at k2
  have k3 := amplitudeLegs_add (CommutatorRun.properFactors hcanon hord hcpu hn ha hb hd hr t ht)
  have := he.none
  have := he.many
  have := he.net
  exact ⟨by omega, by omega, by omega⟩

theorem BchLevels.excited {m : Machine} (hcanon : CanonContract m.canon) (hord : m.ord.Lawful) (hcpu : 1 ≤ m.cpus) {o : Options} (hn : 1 ≤ o.nProcess)
    (hf : o.forCommutator = true) {levels : List Nat} (hk : ∀ k ∈ levels, 1 ≤ k) {maxLevel : Nat} (hmax : ∀ k ∈ levels, k ≤ maxLevel) :
    ∀ {limits : List (Int × Int × Int)} {i : Nat} {pool : List Term} {calls : List (List (Term × Term))} {outs : List (List Term)},
      GoodList (i * (maxLevel * 2) + 4) pool → (∀ t ∈ pool, NiceTerm t) → (∀ t ∈ pool, Excited i t) →
      BchLevels m o levels false true (maxLevel * 2) i pool limits calls outs →
      ∀ j out, outs[j]? = some out → ∀ t ∈ out, Excited (i + 1 + j) t := by
  intro limits
  induction limits with
  | nil =>
    rintro i pool calls outs _ _ _ ⟨-, rfl⟩
    simp
  | cons x limits ih =>
    obtain ⟨maxCu, minOpen, maxOpen⟩ := x
    rintro i pool calls outs hp hw ho ⟨amps, all, copies, out, pool', calls', outs', h1, h2, h3, h4, h5, h6, rfl, rfl⟩
    have hpairs := level_pairs hmax hp h1
    have hampn := clusterOperators_nice hk h1
    have hampe := clusterOperators_each h1
    have hpn : ∀ p ∈ pool.flatMap fun l => amps.map fun r => (l, r), NiceTerm p.1 ∧ NiceTerm p.2 ∧ DisjointLabels p.1 p.2 := by
      intro p hpm
      have hd := (hpairs p hpm).2.2.1
      obtain ⟨l, hl, hpm⟩ := List.mem_flatMap.1 hpm
      obtain ⟨r, hr, rfl⟩ := List.mem_map.1 hpm
      exact ⟨hw l hl, hampn r hr, hd⟩
    have hall : ∀ t ∈ all, Excited (i + 1) t := by
      refine CommutatorsRun.each (P := fun t => Excited (i + 1) t) ?_ h2
      intro p hpm out hr
      obtain ⟨g1, g2, g3⟩ := hpn p hpm
      obtain ⟨l, hl, hpm⟩ := List.mem_flatMap.1 hpm
      obtain ⟨r, hr', rfl⟩ := List.mem_map.1 hpm
      obtain ⟨k, hk', e, s, hu, he⟩ := hampe r hr'
      obtain rfl := hu rfl
      exact Excited.step hcanon hord hcpu (o := { o with maxCu := maxCu, maxOpen := maxOpen, minOpen := minOpen }) hn hf g1 g2 g3 (ho l hl) (hk k hk') he hr
    have copy : ∀ {l l' : List Term}, (∀ t ∈ l, Excited (i + 1) t) → (l.mapM fun t => t.fromTerm false false) = .ok l' → ∀ t ∈ l', Excited (i + 1) t := by
      intro l l' hl h t ht
      obtain ⟨s, hs, e⟩ := forall₂_mem_right (forall₂_of_mapM h) ht
      obtain ⟨x1, x2, x3⟩ := hl s hs
      have ea := amplitudeLegs_congr (properFactors_perm (fromTerm_copy e).1)
      have eo := (fromTerm_copy e).2.1
      exact ⟨by rw [eo]; exact x1, by rw [ea]; exact x2, by rw [ea, eo]; exact x3⟩
    have hnall := (CommutatorsRun.fine hcanon hord hcpu (o := { o with maxCu := maxCu, maxOpen := maxOpen, minOpen := minOpen }) hn _ hpn).2.2 all h2
    have hout : ∀ t ∈ out, Excited (i + 1) t :=
      combine_all (P := fun t => Excited (i + 1) t) (fun _ _ h => ⟨h.none, h.many, h.net⟩) (copy hall h3) h4
    have hnout := nice_combine (copies_live hnall h3) h4
    have g3 := (((CommutatorsRun.good hcanon hord hpairs h2).copies h3).combine h4).copies h5
    rw [show i * (maxLevel * 2) + 4 + maxLevel * 2 = (i + 1) * (maxLevel * 2) + 4 by ring] at g3
    intro j l hl
    cases j with
    | zero =>
      obtain rfl : out = l := by simpa using hl
      exact hout
    | succ j =>
      have := ih g3 (copies_live hnout h5) (copy hout h5) h6 j l (by simpa using hl)
      rwa [show i + 1 + 1 + j = i + 1 + (j + 1) by omega] at this

end Dsrg
