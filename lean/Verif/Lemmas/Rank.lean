import Verif.Lemmas.Linked
import Verif.Spec.Rank

/-!
How many operators the terms of a commutator have.
-/

namespace Dsrg

/-- The number of operators of a string with a property of the kind of operator (creation or annihilation) and the space of the label. -/
def legCount (p : Bool → Space → Bool) (op : SqOp) : Nat := (marked op).countP fun x => p x.1 x.2.space

theorem legCount_congr {p : Bool → Space → Bool} {op op' : SqOp} (h1 : op.upper.list.map Index.space = op'.upper.list.map Index.space)
    (h2 : op.lower.list.map Index.space = op'.lower.list.map Index.space) : legCount p op = legCount p op' := by
  have key : ∀ op : SqOp, legCount p op = (op.upper.list.map Index.space).countP (p true) + (op.lower.list.map Index.space).countP (p false) := by
    intro op
    unfold legCount marked
    rw [List.countP_append, List.countP_map, List.countP_map, List.countP_map, List.countP_map]
    rfl
  rw [key, key, h1, h2]

theorem legCount_perm {p : Bool → Space → Bool} {op op' : SqOp} (h1 : op.upper.list.Perm op'.upper.list) (h2 : op.lower.list.Perm op'.lower.list) :
    legCount p op = legCount p op' := by
  unfold legCount marked
  exact ((h1.map _).append (h2.map _)).countP_eq _

theorem legCount_all (op : SqOp) : legCount (fun _ _ => true) op = nLegs op := by
  unfold legCount marked nLegs
  simp

theorem Rewrites.legCount {p : Bool → Space → Bool} {hermitian : Bool} {c c' : ℚ} {ts ts' : List Tensor} {op op' : SqOp}
    (h : Rewrites hermitian c ts op c' ts' op') : legCount p op' = legCount p op := by
  cases h with
  | rename _ _ f h1 h2 =>
    refine legCount_congr ?_ ?_
    · show (op.upper.list.map f).map Index.space = _
      rw [List.map_map]
      exact List.map_congr_left fun i hi => h2 i (mem_labelsOf.2 (mem_labelList.2 (Or.inl (List.mem_append_left _ hi))))
    · show (op.lower.list.map f).map Index.space = _
      rw [List.map_map]
      exact List.map_congr_left fun i hi => h2 i (mem_labelsOf.2 (mem_labelList.2 (Or.inl (List.mem_append_right _ hi))))
  | reorder => rfl
  | upper => rfl
  | lower => rfl
  | adjoint => rfl
  | opUpper _ _ l₁ l₂ i j e =>
    refine legCount_perm ?_ (List.Perm.refl _)
    rw [e]
    exact (List.Perm.swap i j l₂).append_left l₁
  | opLower _ _ l₁ l₂ i j e =>
    refine legCount_perm (List.Perm.refl _) ?_
    rw [e]
    exact (List.Perm.swap i j l₂).append_left l₁

theorem SameUpToNotation.legCount {p : Bool → Space → Bool} {hermitian : Bool} {c c' : ℚ} {ts ts' : List Tensor} {op op' : SqOp}
    (h : SameUpToNotation hermitian c ts op c' ts' op') : legCount p op' = legCount p op := by
  unfold SameUpToNotation at h
  have key : ∀ q : ℚ × List Tensor × SqOp, Relation.ReflTransGen (fun a b : ℚ × List Tensor × SqOp => Rewrites hermitian a.1 a.2.1 a.2.2 b.1 b.2.1 b.2.2) (c, ts, op) q →
      Dsrg.legCount p q.2.2 = Dsrg.legCount p op := by
    intro q hq
    induction hq with
    | refl => rfl
    | tail _ h2 ih => rw [h2.legCount, ih]
  exact key _ h

theorem Term.simplify_legCount {ord : SetOrder} (hord : ord.Lawful) {t t' : Term} {removeActive : Bool} (hw : t.WF)
    (hdiag : t.diag ⊆ diagonalOf t.tensors t.sqOp) (hp : Paired t.tensors t.sqOp)
    (h : t.simplify ord true removeActive = .ok t') (p : Bool → Space → Bool) : legCount p t'.sqOp ≤ legCount p t.sqOp := by
  classical
  unfold Term.simplify at h
  obtain ⟨cu, hcu, h⟩ := bind_ok h
  obtain ⟨de, hde, h⟩ := bind_ok h
  obtain ⟨st, hlo, h⟩ := bind_ok h
  obtain ⟨op, hop, h⟩ := bind_ok h
  obtain ⟨-, -, -, -, -, -, hid, -⟩ := Term.simplify_stage hord hw hdiag hp hcu hde hlo
  by_cases hv : (removeActive && de.2.any (allActiveAmplitude st.1)) = true
  · rw [if_pos hv] at h
    injection h with h
    subst h
    exact Nat.zero_le _
  · rw [if_neg hv] at h
    obtain ⟨ts, hts, h⟩ := bind_ok h
    injection h with h
    subst h
    obtain ⟨rfl, -⟩ := replaceSqOp_ok (realizes_lookupIn _ _) hop
    have hsame : ∀ i ∈ t.sqOp.upper.list ++ t.sqOp.lower.list, st.1 i = i := by
      intro i hi
      have hdis : ∀ x ∈ t.tensors, x.isDensity = true → i ∉ x.pair.indices := by
        intro x hx hd hix
        have ho := hp.outer
        unfold outerList at ho
        exact (List.nodup_append.1 ho).2.2 i hi i (List.mem_flatMap.2 ⟨x, List.mem_filter.2 ⟨hx, hd⟩, hix⟩) rfl
      rw [hid i ?_ ?_]
      · have hE := hp.merged
        have hinit : Apart t.indicesSet (Merged t.tensors) id t.nextNum :=
          ⟨fun i _ j _ e => Or.inl e, fun i hi => hw.fresh i hi, fun i hi => hw.fresh i hi⟩
        obtain ⟨-, c2, -⟩ := downgradeCumulants_shape hE t.tensors _ cu hinit
          (hp.apart.imp fun hab ha hb => hab (by simp [Tensor.isDensity, ha]) (by simp [Tensor.isDensity, hb])) hcu
        exact (c2 i fun x hx hc _ => hdis x hx (by simp [Tensor.isDensity, hc])).1
      · intro x hx hd
        refine hdis x hx ?_
        rcases hd with hd | hd <;> simp [Tensor.isDensity, hd]
      · intro hi'
        exact hp.diag (hdiag hi') (List.mem_append_left _ hi)
    refine le_of_eq (legCount_congr ?_ ?_)
    · show (t.sqOp.upper.list.map st.1).map Index.space = _
      rw [List.map_map]
      exact List.map_congr_left fun i hi => by simp [hsame i (List.mem_append_left _ hi)]
    · show (t.sqOp.lower.list.map st.1).map Index.space = _
      rw [List.map_map]
      exact List.map_congr_left fun i hi => by simp [hsame i (List.mem_append_right _ hi)]

theorem Term.canonicalizeSympy_legCount {canon : List Nat → List (Nat × Nat) → List SlotGroup → Option (List Nat)} (hcanon : CanonContract canon)
    {ord : SetOrder} (hord : ord.Lawful) {t r : Term} {removeActive hermitian : Bool} (hw : t.WF)
    (hdiag : t.diag ⊆ diagonalOf t.tensors t.sqOp) (hp : Paired t.tensors t.sqOp)
    (hbal : t.sqOp.upper.list.length = t.sqOp.lower.list.length) (hkind : ∀ x ∈ t.tensors, UsualKind x)
    (hty : ∀ x ∈ t.tensors, x.upper.ty = .spinOrbital) (hop : t.sqOp.upper.ty = .spinOrbital)
    (hr : t.canonicalizeSympy canon ord true removeActive hermitian = .ok r) (p : Bool → Space → Bool) : legCount p r.sqOp ≤ legCount p t.sqOp := by
  rw [canonicalizeSympy_eq] at hr
  obtain ⟨s, hs, hr⟩ := bind_ok hr
  have hjs := Term.simplify_legCount hord hw hdiag hp hs p
  obtain ⟨-, hb, -⟩ := Term.simplify_tidy hord hw hdiag hp hs
  obtain ⟨f, hf, hfop⟩ := Term.simplify_origin hs
  by_cases hv : s.isVoid = true
  · unfold sympyTail at hr
    rw [if_pos hv] at hr
    unfold Term.void at hr
    obtain ⟨-, -, -, rfl⟩ := Term.make_ok.1 hr
    exact Nat.zero_le _
  · have hv : s.isVoid = false := by simpa using hv
    have hops : s.sqOp.upper.ty = .spinOrbital ∧ s.sqOp.lower.ty = .spinOrbital := by
      rcases hfop with e | ⟨e, -⟩ <;> rw [e] <;> exact ⟨hop, hop⟩
    refine le_trans (le_of_eq (sympyTail_back hcanon (Term.simplify_shape hw.set_sub hs).1 (by rw [hops.1]; rfl) ?_ ?_ (hops.2.trans hops.1.symm) (hb hbal) ?_ hv hr).legCount) hjs
    · intro x hx
      obtain ⟨y, hy, -, rfl⟩ := hf x hx
      exact (hty y hy).trans hops.1.symm
    · intro x hx
      obtain ⟨y, hy, -, rfl⟩ := hf x hx
      rfl
    · intro x hx y hy e
      obtain ⟨x', hx', -, rfl⟩ := hf x hx
      obtain ⟨y', hy', -, rfl⟩ := hf y hy
      exact (hkind x' hx').consistent (hkind y' hy') e

/-! ### Contractions -/

theorem stringWord_count (p : Bool → Space → Bool) (op : SqOp) : (stringWord op).countP (fun x => p x.1 x.2.space) = legCount p op := by
  unfold stringWord legCount marked
  refine List.Perm.countP_eq _ ?_
  exact ((List.reverse_perm _).map _).append_left _

theorem row_legCount {terms : List Term} (h : ∀ t ∈ terms, GoodTerm t) (hd : terms.Pairwise DisjointLabels) {maxCu maxOpen minOpen : Int}
    {expand : Bool} {c : List Tensor} (hA : Allowed (productOps terms) maxCu maxOpen minOpen c) {row : Row}
    (hrow : row ∈ resultRows (productOps terms) expand c) (p : Bool → Space → Bool) {W : Nat} {z : Tensor} (hz : z ∈ c) (hW : W ≤ legCount p z.pair) :
    legCount p row.2.2 + W ≤ ((productOps terms).map (legCount p)).sum := by
  have hl := (conserves (goodOps_productOps (ordinary_of_good h hd).ops) hA expand row hrow).labels
  have h1 := hl.countP_eq (fun x => p x.1 x.2.space)
  obtain ⟨d, hdm, e⟩ := row_covers row hrow z hz
  rw [List.countP_append, List.countP_flatMap] at h1
  have h2 : legCount p z.pair ≤ ((row.2.1.map Tensor.pair).map (List.countP (fun x : Bool × Index => p x.1 x.2.space) ∘ marked)).sum := by
    rw [← e]
    exact List.le_sum_of_mem (List.mem_map.2 ⟨d.pair, List.mem_map.2 ⟨d, hdm, rfl⟩, rfl⟩)
  have h3 : (productWord (productOps terms)).countP (fun x => p x.1 x.2.space) = ((productOps terms).map (legCount p)).sum := by
    unfold productWord
    rw [List.countP_flatMap]
    congr 1
    exact List.map_congr_left fun op _ => stringWord_count p op
  rw [h3] at h1
  have h4 : (marked row.2.2).countP (fun x => p x.1 x.2.space) = legCount p row.2.2 := rfl
  omega

theorem canonicalizeRow_legCount {m : Machine} (hcanon : CanonContract m.canon) (hord : m.ord.Lawful) {terms : List Term}
    (h : ∀ t ∈ terms, GoodTerm t) (hd : terms.Pairwise DisjointLabels) {maxCu maxOpen minOpen : Int}
    {expand : Bool} {c : List Tensor} (hA : Allowed (productOps terms) maxCu maxOpen minOpen c) {row : Row}
    (hrow : row ∈ resultRows (productOps terms) expand c) {k : ℚ} {hermitian : Bool} {r : Term}
    (hr : canonicalizeRow m (productTensors terms) k hermitian row = .ok r) (p : Bool → Space → Bool) : legCount p r.sqOp ≤ legCount p row.2.2 := by
  have hof := ordinary_of_good h hd
  have hk := contractible_of_good h hd
  have hden := resultRows_density hA row hrow
  unfold canonicalizeRow at hr
  obtain ⟨t, ht, hr⟩ := bind_ok hr
  have hw := Term.wf_of_make ht
  obtain ⟨hty, -, -, rfl⟩ := Term.make_ok.1 ht
  have hopt : row.2.2.upper.ty = .spinOrbital := by
    unfold resultRows at hrow
    obtain ⟨e, -, rfl⟩ := List.mem_map.1 hrow
    rfl
  have hperm := (sortTensors_perm (productTensors terms ++ row.2.1)).symm
  refine Term.canonicalizeSympy_legCount hcanon hord hw (by
      refine (Finset.Subset.antisymm_iff.1 ?_).1
      ext i
      simp only [mem_diagonalOf, (sortTensors_perm _).mem_iff]) ((row_paired h hd hA hrow).perm hperm) (row_balanced hof hk hA hrow) ?_ ?_ ?_ hr p
  · intro x hx
    rcases List.mem_append.1 (hperm.mem_iff.2 hx) with hx | hx
    · obtain ⟨t, ht, hx⟩ := List.mem_flatMap.1 hx
      exact (h t ht).kind x hx
    · exact Or.inl ⟨(hden x hx).cls, (hden x hx).name, (hden x hx).priority⟩
  · intro x hx
    exact (hty x (hperm.mem_iff.2 hx)).trans hopt
  · exact hopt

/-- If every contraction of the two strings uses `W` operators with a property, every term of the product of the two has `W` of them less than
its factors, in connected mode. -/
theorem ContractRun.legCount {m : Machine} (hcanon : CanonContract m.canon) (hord : m.ord.Lawful) {o : Options} (hf : o.forCommutator = true)
    {a b : Term} (ha : GoodTerm a) (hb : GoodTerm b) (hd : DisjointLabels a b) (hna : a.sqOp.size ≠ 0) (hnb : b.sqOp.size ≠ 0)
    (p : Bool → Space → Bool) {W : Nat} (hW : ∀ maxCu z, Elementary [a.sqOp, b.sqOp] maxCu z → W ≤ legCount p z.pair) {scale : ℚ} {out : List Term}
    (hr : ContractRun m o [a, b] scale out) : ∀ t ∈ out, legCount p t.sqOp + W ≤ legCount p a.sqOp + legCount p b.sqOp := by
  have hops : productOps [a, b] = [a.sqOp, b.sqOp] := by
    unfold productOps
    refine List.filter_eq_self.2 ?_
    intro op hop
    simp only [List.map_cons, List.map_nil, List.mem_cons, List.not_mem_nil, or_false] at hop
    rcases hop with rfl | rfl
    · simpa using hna
    · simpa using hnb
  have h : ∀ t ∈ [a, b], GoodTerm t := by simpa using ⟨ha, hb⟩
  have hd : [a, b].Pairwise DisjointLabels := by simpa using hd
  unfold ContractRun at hr
  simp only at hr
  rw [if_neg (by rw [hops]; simp)] at hr
  obtain ⟨batches, all, hb', ha', hc⟩ := hr
  have ho := ordinary_of_good h hd
  unfold ContractionsRun at hb'
  rw [if_pos hf] at hb'
  obtain ⟨cs, -, hcs, -, hperm⟩ := connected_spec (goodOps_productOps ho.ops) hb'
  refine combine_all (P := fun t => Dsrg.legCount p t.sqOp + W ≤ Dsrg.legCount p a.sqOp + Dsrg.legCount p b.sqOp) (fun _ _ h => h)
    (LoopRun.all (P := fun t => Dsrg.legCount p t.sqOp + W ≤ Dsrg.legCount p a.sqOp + Dsrg.legCount p b.sqOp) (fun _ _ h => h) ?_ ha') hc
  intro row hrow r hrr
  rw [List.nil_append] at hrow
  obtain ⟨c, hcm, hrc⟩ := List.mem_flatMap.1 (hperm.mem_iff.1 hrow)
  obtain ⟨hA, hC, -⟩ := hcs c ⟨c, hcm, List.Perm.refl _⟩
  obtain ⟨z, hz, -⟩ := hC {0} ⟨0, by rw [hops]; simp, by simp⟩ ⟨1, by rw [hops]; simp, by simp⟩
  have hel := hA.elementary z hz
  rw [hops] at hel
  have h1 := row_legCount h hd hA hrc p hz (hW _ z hel)
  have h2 := canonicalizeRow_legCount hcanon hord h hd hA hrc hrr p
  rw [hops] at h1
  simp only [List.map_cons, List.map_nil, List.sum_cons, List.sum_nil] at h1
  omega

theorem CommutatorRun.legCount {m : Machine} (hcanon : CanonContract m.canon) (hord : m.ord.Lawful) {o : Options} (hf : o.forCommutator = true)
    {a b : Term} (ha : GoodTerm a) (hb : GoodTerm b) (hd : DisjointLabels a b)
    (p : Bool → Space → Bool) {W : Nat} (hW : ∀ maxCu z, Elementary [a.sqOp, b.sqOp] maxCu z → W ≤ legCount p z.pair)
    (hW' : ∀ maxCu z, Elementary [b.sqOp, a.sqOp] maxCu z → W ≤ legCount p z.pair) {scale : ℚ} {out : List Term}
    (hr : CommutatorRun m o a b scale out) : ∀ t ∈ out, legCount p t.sqOp + W ≤ legCount p a.sqOp + legCount p b.sqOp := by
  unfold CommutatorRun at hr
  split_ifs at hr with h0
  · subst hr; simp
  · obtain ⟨o1, o2, r1, r2, hc⟩ := hr
    have hne : a.sqOp.size ≠ 0 ∧ b.sqOp.size ≠ 0 := by
      push Not at h0
      exact h0 hf
    refine combine_all (P := fun t => Dsrg.legCount p t.sqOp + W ≤ Dsrg.legCount p a.sqOp + Dsrg.legCount p b.sqOp) (fun _ _ h => h) ?_ hc
    intro t ht
    rcases List.mem_append.1 ht with ht | ht
    · exact ContractRun.legCount hcanon hord hf ha hb hd hne.1 hne.2 p hW r1 t ht
    · have := ContractRun.legCount hcanon hord hf hb ha (Disjoint.symm hd) hne.2 hne.1 p hW' r2 t ht
      omega

/-! ### What a contraction uses -/

theorem elementary_two {ops : List SqOp} {maxCu : Int} {z : Tensor} (h : Elementary ops maxCu z) : 2 ≤ legCount (fun _ _ => true) z.pair := by
  rw [legCount_all]
  obtain ⟨key, ⟨i, j, l, r, -, -, -, ⟨u, -, v, -, -, -, rfl⟩ | ⟨u, -, v, -, -, -, rfl⟩⟩ | ⟨cre, ann, -, -, h1, h2, -, -, -, rfl⟩⟩ := h
  · exact le_refl 2
  · exact le_refl 2
  · show 2 ≤ (cre.map Prod.snd).length + (ann.map Prod.snd).length
    rw [List.length_map, List.length_map]
    omega

/-- The operators that lower the excitation (`false`: raise it): core creation and virtual annihilation operators. -/
def lowers (up : Bool) (cre : Bool) (s : Space) : Bool := if cre = up then decide (s.kind = .c) else decide (s.kind = .v)

/-- The operators with other labels than core and virtual ones. -/
def neither (_ : Bool) (s : Space) : Bool := decide (s.kind ≠ .c ∧ s.kind ≠ .v)

theorem legCount_zero {p : Bool → Space → Bool} {op : SqOp} :
    legCount p op = 0 ↔ (∀ i ∈ op.upper.list, p true i.space = false) ∧ ∀ i ∈ op.lower.list, p false i.space = false := by
  unfold legCount marked
  rw [List.countP_eq_zero]
  constructor
  · intro h
    exact ⟨fun i hi => by simpa using h (true, i) (by simp [hi]), fun i hi => by simpa using h (false, i) (by simp [hi])⟩
  · rintro ⟨h1, h2⟩ x hx
    rcases List.mem_append.1 hx with hx | hx
    · obtain ⟨i, hi, rfl⟩ := List.mem_map.1 hx
      simp [h1 i hi]
    · obtain ⟨i, hi, rfl⟩ := List.mem_map.1 hx
      simp [h2 i hi]

theorem denotes_core {k : Kind} {e : Elem} (h : k = .c ∨ k = .v) (he : e ≠ .virt) (hd : k.Denotes e) : k = .c := by
  rcases h with rfl | rfl
  · rfl
  · cases e <;> simp_all [Kind.Denotes]

theorem denotes_virt {k : Kind} {e : Elem} (h : k = .c ∨ k = .v) (he : e ≠ .core) (hd : k.Denotes e) : k = .v := by
  rcases h with rfl | rfl
  · cases e <;> simp_all [Kind.Denotes]
  · rfl

theorem elementary_lowers {a b : SqOp} (ha : legCount neither a = 0) (hb : legCount neither b = 0) (up : Bool) {maxCu : Int} {z : Tensor}
    (h : Elementary [a, b] maxCu z) : 1 ≤ legCount (lowers up) z.pair := by
  have hsp : ∀ (op : SqOp), legCount neither op = 0 → ∀ i, i ∈ op.upper.list ∨ i ∈ op.lower.list → i.space.kind = .c ∨ i.space.kind = .v := by
    intro op ho i hi
    obtain ⟨h1, h2⟩ := legCount_zero.1 ho
    have h3 : neither true i.space = false := by
      rcases hi with hi | hi
      · exact h1 i hi
      · exact h2 i hi
    unfold neither at h3
    simp only [decide_eq_false_iff_not] at h3
    tauto
  have hab : ∀ op ∈ [a, b], legCount neither op = 0 := by simpa using ⟨ha, hb⟩
  obtain ⟨key, ⟨i, j, l, r, -, hl, hr, ⟨u, hu, v, hv, ⟨e, he, h1, h2⟩, -, rfl⟩ | ⟨v, hv, u, hu, ⟨e, he, h1, h2⟩, -, rfl⟩⟩ |
    ⟨cre, ann, hc, -, -, h2, -, -, -, rfl⟩⟩ := h
  · have ku := denotes_core (hsp l (hab l (List.mem_of_getElem? hl)) u (Or.inl hu)) he h1
    have kv := denotes_core (hsp r (hab r (List.mem_of_getElem? hr)) v (Or.inr hv)) he h2
    show 1 ≤ ([(true, u), (false, v)] : List (Bool × Index)).countP fun x => lowers up x.1 x.2.space
    cases up <;> simp [lowers, ku, kv]
  · have ku := denotes_virt (hsp r (hab r (List.mem_of_getElem? hr)) u (Or.inl hu)) he h1
    have kv := denotes_virt (hsp l (hab l (List.mem_of_getElem? hl)) v (Or.inr hv)) he h2
    show 1 ≤ ([(true, u), (false, v)] : List (Bool × Index)).countP fun x => lowers up x.1 x.2.space
    cases up <;> simp [lowers, ku, kv]
  · exfalso
    obtain ⟨x, hx⟩ := List.exists_mem_of_length_pos (show 0 < cre.length by omega)
    have hx := hc.subset hx
    unfold cumulantLegs at hx
    obtain ⟨op, hop, hx⟩ := List.mem_flatMap.1 hx
    obtain ⟨i, hi, rfl⟩ := List.mem_map.1 hx
    obtain ⟨hi, hk⟩ := List.mem_filter.1 hi
    have := hsp op.1 (hab op.1 (List.mem_of_getElem? (List.mem_zipIdx_iff_getElem?.1 hop))) i (Or.inl hi)
    simp only [decide_eq_true_eq] at hk
    tauto

theorem cluster_legs {k start : Nat} {excitation : Bool} {scale : ℚ} {t : Term}
    (h : clusterOperator k start excitation ['T'] scale (holeSpace true) (particleSpace true) .spinOrbital = .ok t) :
    legCount neither t.sqOp = 0 ∧ legCount (lowers excitation) t.sqOp = 0 := by
  obtain ⟨t', x, h1, h2, h3, h4, h5, h6, h7, h8, -⟩ := C38_cluster k start excitation ['T'] scale (holeSpace true) (particleSpace true) .spinOrbital
    rfl fun _ => rfl
  rw [h] at h1
  injection h1 with h1
  subst h1
  have hc : ∀ i ∈ x.upper.list, i.space.kind = .c := by
    rw [h5]
    intro i hi
    rw [(mem_consecutive.1 hi).1]
    rfl
  have hv : ∀ i ∈ x.lower.list, i.space.kind = .v := by
    rw [h6]
    intro i hi
    rw [(mem_consecutive.1 hi).1]
    rfl
  cases excitation
  · simp only [Bool.false_eq_true, if_false] at h7 h8
    refine ⟨legCount_zero.2 ⟨?_, ?_⟩, legCount_zero.2 ⟨?_, ?_⟩⟩ <;> (first | rw [h7] | rw [h8]) <;> intro i hi <;>
      first | simp [neither, lowers, hc i hi] | simp [neither, lowers, hv i hi]
  · simp only [if_true] at h7 h8
    refine ⟨legCount_zero.2 ⟨?_, ?_⟩, legCount_zero.2 ⟨?_, ?_⟩⟩ <;> (first | rw [h7] | rw [h8]) <;> intro i hi <;>
      first | simp [neither, lowers, hc i hi] | simp [neither, lowers, hv i hi]

/-! ### Levels of commutators -/

theorem CommutatorsRun.each {m : Machine} {o : Options} {scale : ℚ} {P : Term → Prop} : ∀ {pairs : List (Term × Term)} {out : List Term},
    (∀ p ∈ pairs, ∀ out, CommutatorRun m o p.1 p.2 scale out → ∀ t ∈ out, P t) → CommutatorsRun m o scale pairs out → ∀ t ∈ out, P t := by
  intro pairs
  induction pairs with
  | nil =>
    intro out _ h
    rw [show out = [] from h]
    simp
  | cons p pairs ih =>
    rintro out h ⟨o1, o2, h1, h2, rfl⟩ t ht
    rcases List.mem_append.1 ht with ht | ht
    · exact h p (by simp) o1 h1 t ht
    · exact ih (fun p hp => h p (by simp [hp])) h2 t ht

theorem clusterOperators_each {levels : List Nat} {start : Nat} {unitary singleRef : Bool} {amps : List Term}
    (h : clusterOperators levels start unitary singleRef = .ok amps) : ∀ t ∈ amps, ∃ k ∈ levels, ∃ excitation scale,
      (unitary = false → excitation = true) ∧
      clusterOperator k start excitation ['T'] scale (holeSpace singleRef) (particleSpace singleRef) .spinOrbital = .ok t := by
  have key : ∀ {excitation : Bool} {scale : ℚ} {l : List Term}, (levels.mapM fun k =>
      clusterOperator k start excitation ['T'] scale (holeSpace singleRef) (particleSpace singleRef) .spinOrbital) = .ok l →
      (unitary = false → excitation = true) → ∀ t ∈ l, ∃ k ∈ levels, ∃ excitation scale, (unitary = false → excitation = true) ∧
        clusterOperator k start excitation ['T'] scale (holeSpace singleRef) (particleSpace singleRef) .spinOrbital = .ok t := by
    intro excitation scale l hl hu t ht
    obtain ⟨k, hkl, e⟩ := forall₂_mem_right (forall₂_of_mapM hl) ht
    exact ⟨k, hkl, excitation, scale, hu, e⟩
  unfold clusterOperators at h
  obtain ⟨a, ha, h⟩ := bind_ok h
  split_ifs at h with hu
  · obtain ⟨b, hb, h⟩ := bind_ok h
    injection h with h
    subst h
    intro t ht
    rcases List.mem_append.1 ht with ht | ht
    · exact key ha (fun _ => rfl) t ht
    · exact key hb (fun h => by rw [h] at hu; cases hu) t ht
  · injection h with h
    subst h
    exact key ha fun _ => rfl

theorem BchLevels.each {m : Machine} (hcanon : CanonContract m.canon) (hord : m.ord.Lawful) {o : Options} (hf : o.forCommutator = true)
    {levels : List Nat} {unitary singleRef : Bool} {maxLevel : Nat} (hmax : ∀ k ∈ levels, k ≤ maxLevel) {P : Nat → SqOp → Prop}
    (hstep : ∀ (o : Options) (i : Nat) (a b : Term) (scale : ℚ) (out : List Term), o.forCommutator = true → GoodTerm a → GoodTerm b → DisjointLabels a b →
      (∃ k ∈ levels, ∃ start excitation scale, (unitary = false → excitation = true) ∧
        clusterOperator k start excitation ['T'] scale (holeSpace singleRef) (particleSpace singleRef) .spinOrbital = .ok b) →
      P i a.sqOp → CommutatorRun m o a b scale out → ∀ t ∈ out, P (i + 1) t.sqOp) :
    ∀ {limits : List (Int × Int × Int)} {i : Nat} {pool : List Term} {calls : List (List (Term × Term))} {outs : List (List Term)},
      GoodList (i * (maxLevel * 2) + 4) pool → (∀ t ∈ pool, P i t.sqOp) →
      BchLevels m o levels unitary singleRef (maxLevel * 2) i pool limits calls outs →
      ∀ n out, outs[n]? = some out → ∀ t ∈ out, P (i + 1 + n) t.sqOp := by
  intro limits
  induction limits with
  | nil =>
    rintro i pool calls outs _ _ ⟨-, rfl⟩
    simp
  | cons x limits ih =>
    obtain ⟨maxCu, minOpen, maxOpen⟩ := x
    rintro i pool calls outs hp hw ⟨amps, all, copies, out, pool', calls', outs', h1, h2, h3, h4, h5, h6, rfl, rfl⟩
    have hpairs := level_pairs hmax hp h1
    have hamps := clusterOperators_each h1
    have hall : ∀ t ∈ all, P (i + 1) t.sqOp := by
      refine CommutatorsRun.each (P := fun t => P (i + 1) t.sqOp) ?_ h2
      intro p hpm out hr
      obtain ⟨g1, g2, g3, -⟩ := hpairs p hpm
      obtain ⟨l, hl, hpm⟩ := List.mem_flatMap.1 hpm
      obtain ⟨r, hr', rfl⟩ := List.mem_map.1 hpm
      obtain ⟨k, hk, e, s, hu, he⟩ := hamps r hr'
      exact hstep { o with maxCu := maxCu, maxOpen := maxOpen, minOpen := minOpen } i l r _ out hf g1 g2 g3 ⟨k, hk, _, e, s, hu, he⟩ (hw l hl) hr
    have copy : ∀ {l l' : List Term}, (∀ t ∈ l, P (i + 1) t.sqOp) → (l.mapM fun t => t.fromTerm false false) = .ok l' → ∀ t ∈ l', P (i + 1) t.sqOp := by
      intro l l' hl h t ht
      obtain ⟨s, hs, e⟩ := forall₂_mem_right (forall₂_of_mapM h) ht
      rw [(fromTerm_copy e).2.1]
      exact hl s hs
    have hout : ∀ t ∈ out, P (i + 1) t.sqOp := combine_all (P := fun t => P (i + 1) t.sqOp) (fun _ _ h => h) (copy hall h3) h4
    have g3 := (((CommutatorsRun.good hcanon hord hpairs h2).copies h3).combine h4).copies h5
    rw [show i * (maxLevel * 2) + 4 + maxLevel * 2 = (i + 1) * (maxLevel * 2) + 4 by ring] at g3
    intro n l hl
    cases n with
    | zero =>
      simp only [List.getElem?_cons_zero, Option.some.injEq] at hl
      subst hl
      exact hout
    | succ n =>
      rw [List.getElem?_cons_succ] at hl
      have := ih g3 (copy hout h5) h6 n l hl
      rw [show i + 1 + (n + 1) = i + 1 + 1 + n by omega]
      exact this

theorem GoodTerm.nLegs_le {t : Term} (h : GoodTerm t) : nLegs t.sqOp ≤ (labelsOf t.tensors t.sqOp).card := by
  classical
  have ho := h.tidy.outer
  unfold outerList at ho
  have hn := (List.nodup_append.1 ho).1
  have : (t.sqOp.upper.list ++ t.sqOp.lower.list).toFinset ⊆ labelsOf t.tensors t.sqOp := by
    intro i hi
    rw [List.mem_toFinset] at hi
    exact mem_labelsOf.2 (mem_labelList.2 (Or.inl hi))
  have hc := Finset.card_le_card this
  rw [List.toFinset_card_of_nodup hn, List.length_append] at hc
  exact hc

theorem bchStart_legs {ord : SetOrder} (hord : ord.Lawful) {start : List Term} (h : bchStart ord = .ok start) :
    ∀ t ∈ start, nLegs t.sqOp ≤ 4 ∧ legCount neither t.sqOp = 0 := by
  obtain ⟨g, hs⟩ := bchStart_good hord h
  intro t ht
  refine ⟨le_trans (g t ht).1.nLegs_le (g t ht).2.card, legCount_zero.2 ⟨?_, ?_⟩⟩
  · intro i hi
    rcases hs t ht i (mem_labelsOf.2 (mem_labelList.2 (Or.inl (List.mem_append_left _ hi)))) with e | e <;> simp [neither, e]
  · intro i hi
    rcases hs t ht i (mem_labelsOf.2 (mem_labelList.2 (Or.inl (List.mem_append_right _ hi)))) with e | e <;> simp [neither, e]

theorem legCount_le (p : Bool → Space → Bool) (op : SqOp) : legCount p op ≤ nLegs op := by
  rw [← legCount_all]
  unfold legCount
  exact List.countP_mono_left fun _ _ _ => rfl

end Dsrg
