import Verif.Lemmas.Printed
import Verif.Lemmas.Collected
import Verif.Spec.Linked

/-!
The terms of connected contractions are linked.
-/

namespace Dsrg

/-- The labels of the factors cannot be divided in two groups such that the labels of each factor are in one group; each factor has labels. -/
structure Joined (ts : List Tensor) : Prop where
  ne : ∀ x ∈ ts, x.pair.indices ≠ []
  one : ∀ S : Index → Prop, (∀ x ∈ ts, (∀ i ∈ x.pair.indices, S i) ∨ ∀ i ∈ x.pair.indices, ¬ S i) →
    (∀ x ∈ ts, ∀ i ∈ x.pair.indices, S i) ∨ ∀ x ∈ ts, ∀ i ∈ x.pair.indices, ¬ S i

theorem mem_pair {x : Tensor} {i : Index} : i ∈ x.pair.indices ↔ i ∈ x.upper.list ∨ i ∈ x.lower.list := by
  unfold IndicesPair.indices Tensor.upper Tensor.lower
  rw [List.mem_append]

theorem Joined.linked {ts : List Tensor} (h : Joined ts) : Linked ts := by
  intro a b hp ha hb
  by_contra hno
  push Not at hno
  have hsep : ∀ x ∈ a, ∀ y ∈ b, ∀ i ∈ x.pair.indices, i ∉ y.pair.indices := by
    intro x hx y hy i hi hj
    have := hno x hx y hy i (mem_pair.1 hi)
    rcases mem_pair.1 hj with hj | hj
    · exact this.1 hj
    · exact this.2 hj
  have hm : ∀ x, x ∈ ts ↔ x ∈ a ∨ x ∈ b := fun x => by rw [hp.mem_iff, List.mem_append]
  obtain ⟨x, hx⟩ := List.exists_mem_of_ne_nil _ ha
  obtain ⟨y, hy⟩ := List.exists_mem_of_ne_nil _ hb
  obtain ⟨i, hi⟩ := List.exists_mem_of_ne_nil _ (h.ne x ((hm x).2 (Or.inl hx)))
  obtain ⟨j, hj⟩ := List.exists_mem_of_ne_nil _ (h.ne y ((hm y).2 (Or.inr hy)))
  rcases h.one (fun i => ∃ x ∈ a, i ∈ x.pair.indices) (fun z hz => by
      rcases (hm z).1 hz with hz | hz
      · exact Or.inl fun i hi => ⟨z, hz, hi⟩
      · refine Or.inr ?_
        rintro i hi ⟨w, hw, hiw⟩
        exact hsep w hw z hz i hiw hi) with h1 | h1
  · obtain ⟨w, hw, hjw⟩ := h1 y ((hm y).2 (Or.inr hy)) j hj
    exact hsep w hw y hy j hjw hj
  · exact h1 x ((hm x).2 (Or.inl hx)) i hi ⟨x, hx, hi⟩

theorem joined_nil : Joined [] := ⟨by simp, fun _ _ => Or.inl (by simp)⟩

theorem joined_single {x : Tensor} (h : x.pair.indices ≠ []) : Joined [x] :=
  ⟨by simpa using h, fun S hS => by simpa using hS⟩

/-- Another list of factors with the same sets of labels. -/
theorem Joined.of_labels {ts ts' : List Tensor} (h : Joined ts) (h1 : ∀ y ∈ ts', ∃ x ∈ ts, ∀ i, i ∈ y.pair.indices ↔ i ∈ x.pair.indices)
    (h2 : ∀ x ∈ ts, ∃ y ∈ ts', ∀ i, i ∈ y.pair.indices ↔ i ∈ x.pair.indices) : Joined ts' := by
  refine ⟨?_, ?_⟩
  · intro y hy e
    obtain ⟨x, hx, hi⟩ := h1 y hy
    obtain ⟨i, hix⟩ := List.exists_mem_of_ne_nil _ (h.ne x hx)
    have := (hi i).2 hix
    rw [e] at this
    simp at this
  · intro S hS
    rcases h.one S (fun x hx => by
      obtain ⟨y, hy, e⟩ := h2 x hx
      rcases hS y hy with h | h
      · exact Or.inl fun i hi => h i ((e i).2 hi)
      · exact Or.inr fun i hi => h i ((e i).2 hi)) with h | h
    · refine Or.inl fun y hy i hi => ?_
      obtain ⟨x, hx, e⟩ := h1 y hy
      exact h x hx i ((e i).1 hi)
    · refine Or.inr fun y hy i hi => ?_
      obtain ⟨x, hx, e⟩ := h1 y hy
      exact h x hx i ((e i).1 hi)

theorem Joined.perm {ts ts' : List Tensor} (h : Joined ts) (hp : ts.Perm ts') : Joined ts' :=
  h.of_labels (fun y hy => ⟨y, hp.mem_iff.2 hy, fun _ => Iff.rfl⟩) fun x hx => ⟨x, hp.mem_iff.1 hx, fun _ => Iff.rfl⟩

theorem mem_relabel {x : Tensor} {f : Index → Index} {i : Index} : i ∈ (x.relabel f).pair.indices ↔ ∃ j ∈ x.pair.indices, f j = i := by
  show i ∈ x.pair.upper.list.map f ++ x.pair.lower.list.map f ↔ ∃ j ∈ x.pair.upper.list ++ x.pair.lower.list, f j = i
  rw [← List.map_append, List.mem_map]

/-- Other labels, when factors are left out whose labels become equal. -/
theorem Joined.relabel {ts ts' : List Tensor} {f : Index → Index} (h : Joined ts)
    (h1 : ∀ y ∈ ts', ∃ x ∈ ts, ∀ i, i ∈ y.pair.indices ↔ ∃ j ∈ x.pair.indices, f j = i)
    (h2 : ∀ x ∈ ts, (∃ y ∈ ts', ∀ i, i ∈ y.pair.indices ↔ ∃ j ∈ x.pair.indices, f j = i) ∨ ∀ i ∈ x.pair.indices, ∀ j ∈ x.pair.indices, f i = f j) :
    Joined ts' := by
  refine ⟨?_, ?_⟩
  · intro y hy e
    obtain ⟨x, hx, hi⟩ := h1 y hy
    obtain ⟨i, hix⟩ := List.exists_mem_of_ne_nil _ (h.ne x hx)
    have := (hi _).2 ⟨i, hix, rfl⟩
    rw [e] at this
    simp at this
  · intro S hS
    rcases h.one (fun i => S (f i)) (fun x hx => by
      rcases h2 x hx with ⟨y, hy, e⟩ | e
      · rcases hS y hy with h | h
        · exact Or.inl fun i hi => h _ ((e _).2 ⟨i, hi, rfl⟩)
        · exact Or.inr fun i hi => h _ ((e _).2 ⟨i, hi, rfl⟩)
      · obtain ⟨i, hi⟩ := List.exists_mem_of_ne_nil _ (h.ne x hx)
        by_cases hs : S (f i)
        · exact Or.inl fun j hj => e i hi j hj ▸ hs
        · exact Or.inr fun j hj => e i hi j hj ▸ hs) with h | h
    · refine Or.inl fun y hy i hi => ?_
      obtain ⟨x, hx, e⟩ := h1 y hy
      obtain ⟨j, hj, rfl⟩ := (e i).1 hi
      exact h x hx j hj
    · refine Or.inr fun y hy i hi => ?_
      obtain ⟨x, hx, e⟩ := h1 y hy
      obtain ⟨j, hj, rfl⟩ := (e i).1 hi
      exact h x hx j hj

/-! ### Changes of notation -/

theorem joined_replace {ts₁ ts₂ : List Tensor} {x y : Tensor} (h : Joined (ts₁ ++ x :: ts₂))
    (e : ∀ i, i ∈ y.pair.indices ↔ i ∈ x.pair.indices) : Joined (ts₁ ++ y :: ts₂) := by
  refine h.of_labels ?_ ?_
  · intro z hz
    rcases List.mem_append.1 hz with hz | hz
    · exact ⟨z, by simp [hz], fun _ => Iff.rfl⟩
    · rcases List.mem_cons.1 hz with rfl | hz
      · exact ⟨x, by simp, e⟩
      · exact ⟨z, by simp [hz], fun _ => Iff.rfl⟩
  · intro z hz
    rcases List.mem_append.1 hz with hz | hz
    · exact ⟨z, by simp [hz], fun _ => Iff.rfl⟩
    · rcases List.mem_cons.1 hz with rfl | hz
      · exact ⟨y, by simp, e⟩
      · exact ⟨z, by simp [hz], fun _ => Iff.rfl⟩

theorem Rewrites.joined {hermitian : Bool} {c c' : ℚ} {ts ts' : List Tensor} {op op' : SqOp} (h : Rewrites hermitian c ts op c' ts' op')
    (hj : Joined ts) : Joined ts' := by
  cases h with
  | rename _ _ f h1 h2 =>
    refine hj.relabel (f := f) ?_ ?_
    · intro y hy
      obtain ⟨x, hx, rfl⟩ := List.mem_map.1 hy
      exact ⟨x, hx, fun i => mem_relabel⟩
    · intro x hx
      exact Or.inl ⟨_, List.mem_map.2 ⟨x, hx, rfl⟩, fun i => mem_relabel⟩
  | reorder _ _ _ hp => exact hj.perm hp
  | upper ts₁ ts₂ x _ l₁ l₂ i j e =>
    refine joined_replace hj fun k => ?_
    rw [mem_pair, mem_pair, e]
    simp only [Tensor.withLabels, Tensor.upper, Tensor.lower, List.mem_append, List.mem_cons]
    tauto
  | lower ts₁ ts₂ x _ l₁ l₂ i j e =>
    refine joined_replace hj fun k => ?_
    rw [mem_pair, mem_pair, e]
    simp only [Tensor.withLabels, Tensor.upper, Tensor.lower, List.mem_append, List.mem_cons]
    tauto
  | adjoint ts₁ ts₂ x _ e =>
    refine joined_replace hj fun k => ?_
    rw [mem_pair, mem_pair]
    simp only [Tensor.withLabels, Tensor.upper, Tensor.lower]
    tauto
  | opUpper => exact hj
  | opLower => exact hj

theorem SameUpToNotation.joined {hermitian : Bool} {c c' : ℚ} {ts ts' : List Tensor} {op op' : SqOp}
    (h : SameUpToNotation hermitian c ts op c' ts' op') (hj : Joined ts) : Joined ts' := by
  unfold SameUpToNotation at h
  have key : ∀ p : ℚ × List Tensor × SqOp, Relation.ReflTransGen (fun a b : ℚ × List Tensor × SqOp => Rewrites hermitian a.1 a.2.1 a.2.2 b.1 b.2.1 b.2.2) (c, ts, op) p →
      Joined p.2.1 := by
    intro p hp
    induction hp with
    | refl => exact hj
    | tail _ h2 ih => exact h2.joined ih
  exact key _ h

/-! ### Simplification and canonicalization -/

theorem Term.simplify_joined {ord : SetOrder} (hord : ord.Lawful) {t t' : Term} {removeActive : Bool} (hw : t.WF)
    (hdiag : t.diag ⊆ diagonalOf t.tensors t.sqOp) (hp : Paired t.tensors t.sqOp) (hj : Joined t.tensors)
    (h : t.simplify ord true removeActive = .ok t') : Joined t'.tensors := by
  classical
  unfold Term.simplify at h
  obtain ⟨cu, hcu, h⟩ := bind_ok h
  obtain ⟨de, hde, h⟩ := bind_ok h
  obtain ⟨st, hlo, h⟩ := bind_ok h
  obtain ⟨op, hop, h⟩ := bind_ok h
  obtain ⟨-, hdel, hfil, -⟩ := Term.simplify_stage hord hw hdiag hp hcu hde hlo
  by_cases hv : (removeActive && de.2.any (allActiveAmplitude st.1)) = true
  · rw [if_pos hv] at h
    injection h with h
    subst h
    exact joined_nil
  · rw [if_neg hv] at h
    obtain ⟨ts, hts, h⟩ := bind_ok h
    injection h with h
    subst h
    obtain ⟨-, rfl, -⟩ := replaceTensors_ok (realizes_lookupIn _ _) hts
    refine hj.relabel (f := st.1) ?_ ?_
    · intro y hy
      obtain ⟨x, hx, rfl⟩ := List.mem_map.1 hy
      rw [hfil] at hx
      exact ⟨x, (List.mem_filter.1 hx).1, fun i => mem_relabel⟩
    · intro x hx
      by_cases hd : ActsAsDelta true x
      · obtain ⟨u, l, hu, hl, e⟩ := hdel x hx hd
        refine Or.inr ?_
        rw [Tensor.indices_one hu hl]
        intro i hi j hj
        simp only [List.mem_cons, List.not_mem_nil, or_false] at hi hj
        rcases hi with rfl | rfl <;> rcases hj with rfl | rfl <;> simp [e]
      · exact Or.inl ⟨_, List.mem_map.2 ⟨x, by rw [hfil]; exact List.mem_filter.2 ⟨hx, by simpa using hd⟩, rfl⟩, fun i => mem_relabel⟩

theorem Term.canonicalizeSympy_joined {canon : List Nat → List (Nat × Nat) → List SlotGroup → Option (List Nat)} (hcanon : CanonContract canon)
    {ord : SetOrder} (hord : ord.Lawful) {t r : Term} {removeActive hermitian : Bool} (hw : t.WF)
    (hdiag : t.diag ⊆ diagonalOf t.tensors t.sqOp) (hp : Paired t.tensors t.sqOp)
    (hbal : t.sqOp.upper.list.length = t.sqOp.lower.list.length) (hkind : ∀ x ∈ t.tensors, UsualKind x)
    (hty : ∀ x ∈ t.tensors, x.upper.ty = .spinOrbital) (hop : t.sqOp.upper.ty = .spinOrbital)
    (hj : Joined t.tensors) (hr : t.canonicalizeSympy canon ord true removeActive hermitian = .ok r) : Joined r.tensors := by
  rw [canonicalizeSympy_eq] at hr
  obtain ⟨s, hs, hr⟩ := bind_ok hr
  have hjs := Term.simplify_joined hord hw hdiag hp hj hs
  obtain ⟨-, hb, -⟩ := Term.simplify_tidy hord hw hdiag hp hs
  obtain ⟨f, hf, hfop⟩ := Term.simplify_origin hs
  by_cases hv : s.isVoid = true
  · unfold sympyTail at hr
    rw [if_pos hv] at hr
    unfold Term.void at hr
    obtain ⟨-, -, -, rfl⟩ := Term.make_ok.1 hr
    exact joined_nil
  · have hv : s.isVoid = false := by simpa using hv
    have hops : s.sqOp.upper.ty = .spinOrbital ∧ s.sqOp.lower.ty = .spinOrbital := by
      rcases hfop with e | ⟨e, -⟩ <;> rw [e] <;> exact ⟨hop, hop⟩
    refine (sympyTail_back hcanon (Term.simplify_shape hw.set_sub hs).1 (by rw [hops.1]; rfl) ?_ ?_ (hops.2.trans hops.1.symm) (hb hbal) ?_ hv hr).joined hjs
    · intro x hx
      obtain ⟨y, hy, -, rfl⟩ := hf x hx
      exact (hty y hy).trans hops.1.symm
    · intro x hx
      obtain ⟨y, hy, -, rfl⟩ := hf x hx
      rfl
    · intro x hx y hy e
      obtain ⟨x', hx', -, rfl⟩ := hf x hx
      obtain ⟨y', hy', -, rfl⟩ := hf y hy
      exact (hkind x' hx').consistent (hkind y' hy') e

/-! ### Contractions -/

/-- Every contraction is in each of its rows, with the same labels. -/
theorem row_covers {ops : List SqOp} {expand : Bool} {c : List Tensor} : ∀ row ∈ resultRows ops expand c, ∀ z ∈ c, ∃ d ∈ row.2.1, d.pair = z.pair := by
  intro row hrow z hz
  unfold resultRows at hrow
  obtain ⟨r, hr, rfl⟩ := List.mem_map.1 hrow
  cases expand with
  | false =>
    simp only [Bool.false_eq_true, if_false, List.mem_singleton] at hr
    subst hr; exact ⟨z, hz, rfl⟩
  | true =>
    rw [if_pos rfl] at hr
    unfold expandHoleDensities at hr
    simp only at hr
    split at hr
    · rw [List.mem_singleton] at hr
      subst hr
      exact ⟨z, hz, rfl⟩
    · rw [List.mem_map] at hr
      obtain ⟨l, hl, rfl⟩ := hr
      rw [mem_pyProduct] at hl
      simp only [splitHoles] at hl ⊢
      by_cases hc : z.cls = .hole
      · obtain ⟨d, hd, hdp⟩ := forall₂_mem_right hl (List.mem_map.2 ⟨z, List.mem_filter.2 ⟨hz, by simpa using hc⟩, rfl⟩)
        refine ⟨d, List.mem_append_right _ hd, ?_⟩
        unfold Tensor.expandHole at hdp
        split at hdp
        · rw [List.mem_singleton] at hdp
          subst hdp
          rfl
        · simp only [List.mem_cons, List.not_mem_nil, or_false] at hdp
          rcases hdp with rfl | rfl <;> rfl
      · exact ⟨z, List.mem_append_left _ (List.mem_filter.2 ⟨hz, by simpa using hc⟩), rfl⟩

/-- The labels of the operator occur in the tensors. -/
theorem GoodTerm.op_mem {t : Term} (h : GoodTerm t) {i : Index} (hi : i ∈ t.sqOp.indices) : ∃ x ∈ t.tensors, i ∈ x.pair.indices := by
  by_contra hno
  push Not at hno
  have h2 := h.tidy.two i (mem_labelList.2 (Or.inl hi))
  have h3 : (t.tensors.flatMap fun x => x.upper.list ++ x.lower.list).count i = 0 := by
    rw [List.count_eq_zero]
    intro hm
    obtain ⟨x, hx, hix⟩ := List.mem_flatMap.1 hm
    exact hno x hx hix
  have h4 : t.sqOp.indices.Nodup := (List.nodup_append.1 h.tidy.outer).1
  have h5 : (t.sqOp.upper.list ++ t.sqOp.lower.list).count i ≤ 1 := List.nodup_iff_count_le_one.1 h4 i
  unfold labelList at h2
  rw [List.count_append] at h2
  omega

/-- The factors of a product and the densities of a contraction that connects all operators are joined. -/
theorem row_joined {terms : List Term} (h : ∀ t ∈ terms, GoodTerm t) (hd : terms.Pairwise DisjointLabels) (hj : ∀ t ∈ terms, Joined t.tensors)
    (hne : ∀ t ∈ terms, t.sqOp.size ≠ 0) {maxCu maxOpen minOpen : Int} {expand : Bool} {c : List Tensor}
    (hA : Allowed (productOps terms) maxCu maxOpen minOpen c) (hC : ConnectsAll (productOps terms) c) {row : Row}
    (hrow : row ∈ resultRows (productOps terms) expand c) : Joined (productTensors terms ++ row.2.1) := by
  classical
  have hops : productOps terms = terms.map Term.sqOp := by
    unfold productOps
    refine List.filter_eq_self.2 ?_
    intro op hop
    obtain ⟨t, ht, rfl⟩ := List.mem_map.1 hop
    simpa using hne t ht
  have hG := goodOps_productOps (ordinary_of_good h hd).ops
  have hden : ∀ d ∈ row.2.1, d.pair.indices ≠ [] ∧ ∀ i ∈ d.pair.indices, ∃ t ∈ terms, i ∈ t.sqOp.indices := by
    intro d hdm
    obtain ⟨z, hz, e, -⟩ := row_pairs row hrow d hdm
    have hp := proper_of_elementary hG (hA.elementary z hz)
    rw [e]
    refine ⟨fun e => hp.ne (List.append_eq_nil_iff.1 e).1, fun i hi => ?_⟩
    have : ∃ op ∈ productOps terms, i ∈ op.indices := by
      rcases List.mem_append.1 hi with hi | hi
      · obtain ⟨op, hop, hi⟩ := List.mem_flatMap.1 (hp.upperSub i hi)
        exact ⟨op, hop, List.mem_append_left _ hi⟩
      · obtain ⟨op, hop, hi⟩ := List.mem_flatMap.1 (hp.lowerSub i hi)
        exact ⟨op, hop, List.mem_append_right _ hi⟩
    obtain ⟨op, hop, hi⟩ := this
    rw [hops] at hop
    obtain ⟨t, ht, rfl⟩ := List.mem_map.1 hop
    exact ⟨t, ht, hi⟩
  refine ⟨?_, ?_⟩
  · intro x hx
    rcases List.mem_append.1 hx with hx | hx
    · obtain ⟨t, ht, hx⟩ := List.mem_flatMap.1 hx
      exact (hj t ht).ne x hx
    · exact (hden x hx).1
  · intro S hS
    have hterm : ∀ t ∈ terms, (∀ x ∈ t.tensors, ∀ i ∈ x.pair.indices, S i) ∨ ∀ x ∈ t.tensors, ∀ i ∈ x.pair.indices, ¬ S i := fun t ht =>
      (hj t ht).one S fun x hx => hS x (List.mem_append_left _ (List.mem_flatMap.2 ⟨t, ht, hx⟩))
    -- once all terms are in one group, so are the densities
    have hall : ∀ Q : Index → Prop, (∀ t ∈ terms, ∀ x ∈ t.tensors, ∀ i ∈ x.pair.indices, Q i) →
        ∀ x ∈ productTensors terms ++ row.2.1, ∀ i ∈ x.pair.indices, Q i := by
      intro Q hQ x hx i hi
      rcases List.mem_append.1 hx with hx | hx
      · obtain ⟨t, ht, hx⟩ := List.mem_flatMap.1 hx
        exact hQ t ht x hx i hi
      · obtain ⟨t, ht, hio⟩ := (hden x hx).2 i hi
        obtain ⟨y, hy, hiy⟩ := (h t ht).op_mem hio
        exact hQ t ht y hy i hiy
    let P : Term → Prop := fun t => ∀ x ∈ t.tensors, ∀ i ∈ x.pair.indices, S i
    by_cases h1 : ∀ t ∈ terms, P t
    · exact Or.inl (hall S h1)
    by_cases h2 : ∀ t ∈ terms, ¬ P t
    · refine Or.inr (hall (fun i => ¬ S i) fun t ht => ?_)
      rcases hterm t ht with h | h
      · exact absurd h (h2 t ht)
      · exact h
    exfalso
    push Not at h1 h2
    obtain ⟨t1, ht1, hn1⟩ := h1
    obtain ⟨t2, ht2, hp2⟩ := h2
    obtain ⟨k1, hk1, rfl⟩ := List.getElem_of_mem ht1
    obtain ⟨k2, hk2, rfl⟩ := List.getElem_of_mem ht2
    have hlen : (productOps terms).length = terms.length := by rw [hops, List.length_map]
    obtain ⟨z, hz, ⟨a, haS, ha⟩, b, hbS, hb⟩ := hC ((Finset.range terms.length).filter fun k => ∃ t, terms[k]? = some t ∧ P t)
      ⟨k2, by omega, by
        rw [Finset.mem_filter, Finset.mem_range]
        exact ⟨hk2, _, List.getElem?_eq_getElem hk2, hp2⟩⟩
      ⟨k1, by omega, by
        rw [Finset.mem_filter, Finset.mem_range]
        rintro ⟨-, t, e, hp⟩
        rw [List.getElem?_eq_getElem hk1] at e
        injection e with e
        exact hn1 (e ▸ hp)⟩
    have hinv : ∀ k, Involves (productOps terms) k z → ∃ t, terms[k]? = some t ∧ t ∈ terms ∧ ∃ i ∈ z.pair.indices, i ∈ t.sqOp.indices := by
      rintro k ⟨op, hop, hi⟩
      rw [hops, List.getElem?_map] at hop
      obtain ⟨t, ht, rfl⟩ := Option.map_eq_some_iff.1 hop
      refine ⟨t, ht, List.mem_of_getElem? ht, ?_⟩
      rcases hi with ⟨i, h1, h2⟩ | ⟨i, h1, h2⟩
      · exact ⟨i, List.mem_append_left _ h1, List.mem_append_left _ h2⟩
      · exact ⟨i, List.mem_append_right _ h1, List.mem_append_right _ h2⟩
    obtain ⟨ta, ea, hta, i, hiz, hia⟩ := hinv a ha
    obtain ⟨tb, eb, htb, j, hjz, hjb⟩ := hinv b hb
    obtain ⟨xa, hxa, hixa⟩ := (h ta hta).op_mem hia
    obtain ⟨xb, hxb, hjxb⟩ := (h tb htb).op_mem hjb
    have hSi : S i := by
      obtain ⟨-, t, e, hp⟩ := Finset.mem_filter.1 haS
      rw [ea] at e
      injection e with e
      subst e
      exact hp xa hxa i hixa
    have hSj : ¬ S j := by
      rcases hterm tb htb with hh | hh
      · refine absurd (Finset.mem_filter.2 ⟨Finset.mem_range.2 ?_, tb, eb, hh⟩) hbS
        exact (List.getElem?_eq_some_iff.1 eb).1
      · exact hh xb hxb j hjxb
    obtain ⟨d, hdm, e⟩ := row_covers row hrow z hz
    rcases hS d (List.mem_append_right _ hdm) with hh | hh
    · exact hSj (hh j (e ▸ hjz))
    · exact hh i (e ▸ hiz) hSi

theorem canonicalizeRow_joined {m : Machine} (hcanon : CanonContract m.canon) (hord : m.ord.Lawful) {terms : List Term}
    (h : ∀ t ∈ terms, GoodTerm t) (hd : terms.Pairwise DisjointLabels) {maxCu maxOpen minOpen : Int}
    {expand : Bool} {c : List Tensor} (hA : Allowed (productOps terms) maxCu maxOpen minOpen c) {row : Row}
    (hrow : row ∈ resultRows (productOps terms) expand c) (hj : Joined (productTensors terms ++ row.2.1)) {k : ℚ} {hermitian : Bool} {r : Term}
    (hr : canonicalizeRow m (productTensors terms) k hermitian row = .ok r) : Joined r.tensors := by
  have hof := ordinary_of_good h hd
  have hk := contractible_of_good h hd
  have hden := resultRows_density hA row hrow
  unfold canonicalizeRow at hr
  obtain ⟨t, ht, hr⟩ := bind_ok hr
  have hw := Term.wf_of_make ht
  obtain ⟨hty, -, -, rfl⟩ := Term.make_ok.1 ht
  have hopt : row.2.2.upper.ty = .spinOrbital := by
    unfold resultRows at hrow
    obtain ⟨e, -, rfl⟩ := List.mem_map.1 hrow
    rfl
  have hperm := (sortTensors_perm (productTensors terms ++ row.2.1)).symm
  refine Term.canonicalizeSympy_joined hcanon hord hw (by
      refine (Finset.Subset.antisymm_iff.1 ?_).1
      ext i
      simp only [mem_diagonalOf, (sortTensors_perm _).mem_iff]) ((row_paired h hd hA hrow).perm hperm) (row_balanced hof hk hA hrow) ?_ ?_ ?_
    (hj.perm hperm) hr
  · intro x hx
    rcases List.mem_append.1 (hperm.mem_iff.2 hx) with hx | hx
    · obtain ⟨t, ht, hx⟩ := List.mem_flatMap.1 hx
      exact (h t ht).kind x hx
    · exact Or.inl ⟨(hden x hx).cls, (hden x hx).name, (hden x hx).priority⟩
  · intro x hx
    exact (hty x (hperm.mem_iff.2 hx)).trans hopt
  · exact hopt

/-- The terms of a contraction in connected mode are linked, if those of the product are. -/
theorem ContractRun.joined {m : Machine} (hcanon : CanonContract m.canon) (hord : m.ord.Lawful) {o : Options} (hf : o.forCommutator = true)
    {terms : List Term} (h : ∀ t ∈ terms, GoodTerm t) (hd : terms.Pairwise DisjointLabels) (hj : ∀ t ∈ terms, Joined t.tensors)
    (hne : ∀ t ∈ terms, t.sqOp.size ≠ 0) {scale : ℚ} {out : List Term} (hr : ContractRun m o terms scale out) : ∀ t ∈ out, Joined t.tensors := by
  match terms, hr with
  | first :: rest, hr =>
    unfold ContractRun at hr
    simp only at hr
    split_ifs at hr with hlt
    · obtain ⟨t, ht, rfl⟩ := hr
      intro u hu
      obtain rfl : u = t := by simpa using hu
      have hrest : rest = [] := by
        unfold productOps at hlt
        rw [List.filter_eq_self.2 ?_, List.length_map, List.length_cons] at hlt
        · exact List.length_eq_zero_iff.1 (by omega)
        · intro op hop
          obtain ⟨t, ht, rfl⟩ := List.mem_map.1 hop
          simpa using hne t ht
      subst hrest
      obtain ⟨-, -, -, rfl⟩ := Term.make_ok.1 ht
      refine Joined.perm ?_ (sortTensors_perm _).symm
      have := hj first (by simp)
      simpa [productTensors] using this
    · obtain ⟨batches, all, hb, ha, hc⟩ := hr
      have ho := ordinary_of_good h hd
      unfold ContractionsRun at hb
      rw [if_pos hf] at hb
      obtain ⟨cs, -, hcs, -, hperm⟩ := connected_spec (goodOps_productOps ho.ops) hb
      refine combine_all (P := fun t => Joined t.tensors) (fun _ _ h => h) (LoopRun.all (P := fun t => Joined t.tensors) (fun _ _ h => h) ?_ ha) hc
      intro row hrow r hrr
      rw [List.nil_append] at hrow
      obtain ⟨c, hcm, hrc⟩ := List.mem_flatMap.1 (hperm.mem_iff.1 hrow)
      obtain ⟨hA, hC, -⟩ := hcs c ⟨c, hcm, List.Perm.refl _⟩
      exact canonicalizeRow_joined hcanon hord h hd hA hrc (row_joined h hd hj hne hA hC hrc) hrr

theorem CommutatorRun.joined {m : Machine} (hcanon : CanonContract m.canon) (hord : m.ord.Lawful) {o : Options} (hf : o.forCommutator = true)
    {a b : Term} (ha : GoodTerm a) (hb : GoodTerm b) (hja : Joined a.tensors) (hjb : Joined b.tensors) (hd : DisjointLabels a b) {scale : ℚ}
    {out : List Term} (hr : CommutatorRun m o a b scale out) : ∀ t ∈ out, Joined t.tensors := by
  unfold CommutatorRun at hr
  split_ifs at hr with h0
  · subst hr; simp
  · obtain ⟨o1, o2, r1, r2, hc⟩ := hr
    have hne : a.sqOp.size ≠ 0 ∧ b.sqOp.size ≠ 0 := by
      push Not at h0
      exact h0 hf
    refine combine_all (P := fun t => Joined t.tensors) (fun _ _ h => h) ?_ hc
    intro t ht
    rcases List.mem_append.1 ht with ht | ht
    · exact ContractRun.joined hcanon hord hf (by simpa using ⟨ha, hb⟩) (by simpa using hd) (by simpa using ⟨hja, hjb⟩) (by simpa using hne) r1 t ht
    · exact ContractRun.joined hcanon hord hf (by simpa using ⟨hb, ha⟩) (List.pairwise_pair.2 (Disjoint.symm hd)) (by simpa using ⟨hjb, hja⟩)
        (by simpa using hne.symm) r2 t ht

/-! ### Loops over commutators -/

theorem LiveTerm.labels {t : Term} (h : LiveTerm t) : ∀ x ∈ t.tensors, x.pair.indices ≠ [] :=
  fun x hx e => (h.sound.tensor x hx).pos (List.append_eq_nil_iff.1 e).1

theorem Linked.joined {ts : List Tensor} (h : Linked ts) (hne : ∀ x ∈ ts, x.pair.indices ≠ []) : Joined ts := by
  classical
  refine ⟨hne, fun S hS => ?_⟩
  by_cases ha : ts.filter (fun x => decide (∀ i ∈ x.pair.indices, S i)) = []
  · refine Or.inr fun x hx => ?_
    rcases hS x hx with h1 | h1
    · have : x ∈ ts.filter (fun x => decide (∀ i ∈ x.pair.indices, S i)) := List.mem_filter.2 ⟨hx, by simpa using h1⟩
      rw [ha] at this
      simp at this
    · exact h1
  · by_cases hb : ts.filter (fun x => !decide (∀ i ∈ x.pair.indices, S i)) = []
    · refine Or.inl fun x hx => ?_
      by_contra h1
      have : x ∈ ts.filter (fun x => !decide (∀ i ∈ x.pair.indices, S i)) := List.mem_filter.2 ⟨hx, by simpa using h1⟩
      rw [hb] at this
      simp at this
    · obtain ⟨x, hx, y, hy, i, hix, hiy⟩ := h _ _ (List.filter_append_perm (fun x : Tensor => decide (∀ i ∈ x.pair.indices, S i)) ts).symm ha hb
      obtain ⟨-, hx⟩ := List.mem_filter.1 hx
      obtain ⟨hyt, hy⟩ := List.mem_filter.1 hy
      have hSi : S i := (of_decide_eq_true hx) i (mem_pair.2 hix)
      rcases hS y hyt with h1 | h1
      · rw [decide_eq_true h1] at hy
        exact absurd hy (by decide)
      · exact absurd hSi (h1 i (mem_pair.2 hiy))

theorem joined_of_single {t : Term} {x : Tensor} (h : LiveTerm t) (e : t.tensors = [x]) : Joined t.tensors := by
  have := h.labels x (by simp [e])
  rw [e]
  exact joined_single this

theorem joined_combine {l out : List Term} (h : ∀ t ∈ l, Joined t.tensors) (hc : combineTerms l = .ok out) : ∀ t ∈ out, Joined t.tensors :=
  combine_all (P := fun t => Joined t.tensors) (fun _ _ h => h) h hc

theorem joined_copies {l out : List Term} (h : ∀ t ∈ l, Joined t.tensors) (hc : (l.mapM fun t => t.fromTerm false false) = .ok out) :
    ∀ t ∈ out, Joined t.tensors := by
  intro x hx
  obtain ⟨t, ht, e⟩ := forall₂_mem_right (forall₂_of_mapM hc) hx
  exact (h t ht).perm (fromTerm_copy e).1.symm

theorem CommutatorsRun.joined {m : Machine} (hcanon : CanonContract m.canon) (hord : m.ord.Lawful) {o : Options} (hf : o.forCommutator = true)
    {scale : ℚ} : ∀ {pairs : List (Term × Term)} {out : List Term},
    (∀ p ∈ pairs, GoodTerm p.1 ∧ GoodTerm p.2 ∧ Joined p.1.tensors ∧ Joined p.2.tensors ∧ DisjointLabels p.1 p.2) →
    CommutatorsRun m o scale pairs out → ∀ t ∈ out, Joined t.tensors := by
  intro pairs
  induction pairs with
  | nil =>
    intro out _ h
    rw [show out = [] from h]
    simp
  | cons p pairs ih =>
    rintro out h ⟨o1, o2, h1, h2, rfl⟩ t ht
    obtain ⟨a1, a2, a3, a4, a5⟩ := h p (by simp)
    rcases List.mem_append.1 ht with ht | ht
    · exact CommutatorRun.joined hcanon hord hf a1 a2 a3 a4 a5 h1 t ht
    · exact ih (fun q hq => h q (by simp [hq])) h2 t ht

theorem LinearCommutatorRun.joined {m : Machine} (hcanon : CanonContract m.canon) (hord : m.ord.Lawful) {o : Options} (hf : o.forCommutator = true)
    {lefts rights : List Term} (hl : ∀ t ∈ lefts, GoodTerm t ∧ Joined t.tensors) (hr : ∀ t ∈ rights, GoodTerm t ∧ Joined t.tensors)
    (hd : ∀ a ∈ lefts, ∀ b ∈ rights, DisjointLabels a b) {scale : ℚ} {out : List Term} (h : LinearCommutatorRun m o lefts rights scale out) :
    ∀ t ∈ out, Joined t.tensors := by
  obtain ⟨all, h1, h2⟩ := h
  refine joined_combine (CommutatorsRun.joined hcanon hord (o := { o with expandHole := true }) hf ?_ h1) h2
  intro p hp
  obtain ⟨l, hl', hp⟩ := List.mem_flatMap.1 hp
  obtain ⟨r, hr', rfl⟩ := List.mem_map.1 hp
  exact ⟨(hl l hl').1, (hr r hr').1, (hl l hl').2, (hr r hr').2, hd l hl' r hr'⟩

theorem cluster_joined {k start : Nat} (hk : 1 ≤ k) {excitation : Bool} {scale : ℚ} {singleRef : Bool} {t : Term}
    (h : clusterOperator k start excitation ['T'] scale (holeSpace singleRef) (particleSpace singleRef) .spinOrbital = .ok t) :
    Joined t.tensors ∧ t.sqOp.size ≠ 0 := by
  have hb1 : (holeSpace singleRef).beta = false := by cases singleRef <;> rfl
  have hb2 : (particleSpace singleRef).beta = false := by cases singleRef <;> rfl
  have hl := cluster_live hk h
  obtain ⟨-, -, -, h4, -⟩ := cluster_good h
  obtain ⟨t', x, h1, h2, h3, -⟩ := C38_cluster k start excitation ['T'] scale (holeSpace singleRef) (particleSpace singleRef) .spinOrbital
    (hb1.trans hb2.symm) fun _ => hb1
  rw [h] at h1
  injection h1 with h1
  subst h1
  refine ⟨joined_of_single hl h2, ?_⟩
  show t.sqOp.upper.list.length + t.sqOp.lower.list.length ≠ 0
  omega

theorem hamiltonian_joined {k start : Nat} (hk : 1 ≤ k) {t : Term} (h : hamiltonianOperator k start .spinOrbital = .ok t) :
    Joined t.tensors ∧ t.sqOp.size ≠ 0 := by
  have hl := hamiltonian_live hk h
  obtain ⟨-, -, -, h4, -⟩ := hamiltonian_good_from h
  obtain ⟨t', x, h1, h2, h3, -⟩ := C38_hamiltonian k start .spinOrbital
  rw [h] at h1
  injection h1 with h1
  subst h1
  refine ⟨joined_of_single hl h2, ?_⟩
  show t.sqOp.upper.list.length + t.sqOp.lower.list.length ≠ 0
  omega

theorem clusterOperators_joined {levels : List Nat} (hk : ∀ k ∈ levels, 1 ≤ k) {start : Nat} {unitary singleRef : Bool} {amps : List Term}
    (h : clusterOperators levels start unitary singleRef = .ok amps) : ∀ t ∈ amps, Joined t.tensors := by
  have key : ∀ {excitation : Bool} {scale : ℚ} {l : List Term}, (levels.mapM fun k =>
      clusterOperator k start excitation ['T'] scale (holeSpace singleRef) (particleSpace singleRef) .spinOrbital) = .ok l → ∀ t ∈ l, Joined t.tensors := by
    intro excitation scale l hl t ht
    obtain ⟨k, hkl, e⟩ := forall₂_mem_right (forall₂_of_mapM hl) ht
    exact (cluster_joined (hk k hkl) e).1
  unfold clusterOperators at h
  obtain ⟨a, ha, h⟩ := bind_ok h
  split_ifs at h
  · obtain ⟨b, hb, h⟩ := bind_ok h
    injection h with h
    subst h
    intro t ht
    rcases List.mem_append.1 ht with ht | ht
    · exact key ha t ht
    · exact key hb t ht
  · injection h with h
    subst h
    exact key ha

theorem bchStart_joined {ord : SetOrder} (hord : ord.Lawful) {start : List Term} (h : bchStart ord = .ok start) : ∀ r ∈ start, Joined r.tensors := by
  have key : ∀ {k : Nat} {out : List Term}, 1 ≤ k → expandedHamiltonian ord k = .ok out → ∀ r ∈ out, Joined r.tensors := by
    intro k out hk h
    unfold expandedHamiltonian at h
    obtain ⟨t, ht, h⟩ := bind_ok h
    obtain ⟨rows, hrows, h⟩ := bind_ok h
    refine joined_combine ?_ h
    intro r hr
    obtain ⟨-, -, -, -, x, e1, -, e3, -⟩ := expand_good hord ht hrows r hr
    rw [e1]
    refine joined_single fun e => ?_
    have := (List.append_eq_nil_iff.1 e).1
    rw [show x.upper.list = [] from this] at e3
    simp at e3
    omega
  unfold bchStart at h
  obtain ⟨a, ha, h⟩ := bind_ok h
  obtain ⟨b, hb, h⟩ := bind_ok h
  injection h with h
  subst h
  intro r hr
  rcases List.mem_append.1 hr with h | h
  · exact key (by omega) ha r h
  · exact key (by omega) hb r h

theorem BchLevels.joined {m : Machine} (hcanon : CanonContract m.canon) (hord : m.ord.Lawful) {o : Options} (hf : o.forCommutator = true)
    {levels : List Nat} (hk : ∀ k ∈ levels, 1 ≤ k) {unitary singleRef : Bool} {maxLevel : Nat} (hmax : ∀ k ∈ levels, k ≤ maxLevel) :
    ∀ {limits : List (Int × Int × Int)} {i : Nat} {pool : List Term} {calls : List (List (Term × Term))} {outs : List (List Term)},
      GoodList (i * (maxLevel * 2) + 4) pool → (∀ t ∈ pool, Joined t.tensors) →
      BchLevels m o levels unitary singleRef (maxLevel * 2) i pool limits calls outs → ∀ out ∈ outs, ∀ t ∈ out, Joined t.tensors := by
  intro limits
  induction limits with
  | nil =>
    rintro i pool calls outs _ _ ⟨-, rfl⟩
    simp
  | cons x limits ih =>
    obtain ⟨maxCu, minOpen, maxOpen⟩ := x
    rintro i pool calls outs hp hw ⟨amps, all, copies, out, pool', calls', outs', h1, h2, h3, h4, h5, h6, rfl, rfl⟩
    have hpairs := level_pairs hmax hp h1
    have hampw := clusterOperators_joined hk h1
    have hall : ∀ t ∈ all, Joined t.tensors := by
      refine CommutatorsRun.joined hcanon hord (o := { o with maxCu := maxCu, maxOpen := maxOpen, minOpen := minOpen }) hf ?_ h2
      intro p hpm
      obtain ⟨g1, g2, g3, -⟩ := hpairs p hpm
      obtain ⟨l, hl, hpm⟩ := List.mem_flatMap.1 hpm
      obtain ⟨r, hr, rfl⟩ := List.mem_map.1 hpm
      exact ⟨g1, g2, hw l hl, hampw r hr, g3⟩
    have hout := joined_combine (joined_copies hall h3) h4
    have g3 := (((CommutatorsRun.good hcanon hord hpairs h2).copies h3).combine h4).copies h5
    rw [show i * (maxLevel * 2) + 4 + maxLevel * 2 = (i + 1) * (maxLevel * 2) + 4 by ring] at g3
    intro l hl
    rcases List.mem_cons.1 hl with rfl | hl
    · exact hout
    · exact ih g3 (joined_copies hout h5) h6 l hl

theorem RecursiveRun.joined {m : Machine} (hcanon : CanonContract m.canon) (hord : m.ord.Lawful) {o : Options} (hf : o.forCommutator = true) :
    ∀ {levels : List (Term × Int × Int × Int)} {pool : List Term} {N : Nat} {outs : List (List Term)}, GoodList N pool →
      (∀ t ∈ pool, Joined t.tensors) → (∀ l ∈ levels, GoodTerm l.1 ∧ Joined l.1.tensors) →
      (∀ pre l post, levels = pre ++ l :: post → ∀ i ∈ labelsOf l.1.tensors l.1.sqOp,
        N + (pre.map fun l => (labelsOf l.1.tensors l.1.sqOp).card).sum ≤ i.number) →
      RecursiveRun m o pool levels outs → ∀ out ∈ outs, ∀ t ∈ out, Joined t.tensors := by
  intro levels
  induction levels with
  | nil =>
    rintro pool N outs _ _ _ _ h
    rw [show outs = [] from h]
    simp
  | cons x levels ih =>
    obtain ⟨right, maxCu, minOpen, maxOpen⟩ := x
    rintro pool N outs hp hw hl hnum ⟨all, out, outs', h1, h2, h3, rfl⟩
    have hr := hl (right, maxCu, minOpen, maxOpen) (by simp)
    have hd : ∀ l ∈ pool, DisjointLabels l right := fun l hlm => disjointLabels_of_numbers (hp l hlm).2.number fun i hi => by
      simpa using hnum [] (right, maxCu, minOpen, maxOpen) levels rfl i hi
    have hpair : ∀ p ∈ pool.map fun l => (l, right), GoodTerm p.1 ∧ GoodTerm p.2 ∧ DisjointLabels p.1 p.2 ∧
        (labelsOf p.1.tensors p.1.sqOp).card + (labelsOf p.2.tensors p.2.sqOp).card ≤ N + (labelsOf right.tensors right.sqOp).card := by
      intro p hpm
      obtain ⟨l, hlm, rfl⟩ := List.mem_map.1 hpm
      have := (hp l hlm).2.card
      exact ⟨(hp l hlm).1, hr.1, hd l hlm, by simpa using this⟩
    have hall : ∀ t ∈ all, Joined t.tensors := by
      refine CommutatorsRun.joined hcanon hord (o := { o with maxCu := maxCu, maxOpen := maxOpen, minOpen := minOpen }) hf ?_ h1
      intro p hpm
      obtain ⟨l, hlm, rfl⟩ := List.mem_map.1 hpm
      exact ⟨(hp l hlm).1, hr.1, hw l hlm, hr.2, hd l hlm⟩
    have hout := joined_combine hall h2
    intro l hl'
    rcases List.mem_cons.1 hl' with rfl | hl'
    · exact hout
    · refine ih ((CommutatorsRun.good hcanon hord hpair h1).combine h2) hout (fun l hl' => hl l (by simp [hl'])) ?_ h3 l hl'
      intro pre l post e i hi
      have := hnum ((right, maxCu, minOpen, maxOpen) :: pre) l post (by rw [e]; rfl) i hi
      simp only [List.map_cons, List.sum_cons] at this
      omega

theorem nestedFactors_joined {singleRef : Bool} : ∀ {names : List OpName} {start : Nat} {terms : List Term}, (∀ x ∈ names, 1 ≤ x.bodies) →
    nestedFactors singleRef start names = .ok terms → ∀ t ∈ terms, Joined t.tensors ∧ t.sqOp.size ≠ 0 := by
  intro names
  induction names with
  | nil =>
    intro start terms _ h
    injection h with h
    subst h
    simp
  | cons x names ih =>
    intro start terms hb h
    have hx := hb x (by simp)
    have hr : ∀ y ∈ names, 1 ≤ y.bodies := fun y hy => hb y (by simp [hy])
    cases x with
    | H k =>
      unfold nestedFactors at h
      obtain ⟨t, ht, h⟩ := bind_ok h
      obtain ⟨ts, hts, h⟩ := bind_ok h
      injection h with h
      subst h
      intro y hy
      rcases List.mem_cons.1 hy with rfl | hy
      · exact hamiltonian_joined hx ht
      · exact ih hr hts y hy
    | T k =>
      unfold nestedFactors at h
      obtain ⟨t, ht, h⟩ := bind_ok h
      obtain ⟨ts, hts, h⟩ := bind_ok h
      injection h with h
      subst h
      intro y hy
      rcases List.mem_cons.1 hy with rfl | hy
      · exact cluster_joined hx ht
      · exact ih hr hts y hy
    | X k =>
      unfold nestedFactors at h
      obtain ⟨t, ht, h⟩ := bind_ok h
      obtain ⟨ts, hts, h⟩ := bind_ok h
      injection h with h
      subst h
      intro y hy
      rcases List.mem_cons.1 hy with rfl | hy
      · exact cluster_joined hx ht
      · exact ih hr hts y hy

theorem NestedLoop.joined {m : Machine} (hcanon : CanonContract m.canon) (hord : m.ord.Lawful) {o : Options} (hf : o.forCommutator = true)
    {singleRef : Bool} {scale : ℚ} : ∀ {e : List (ℤ × List OpName)} {calls : List (List Term × ℚ)} {out : List Term},
    (∀ p ∈ e, p.2.countP OpName.isH ≤ 1 ∧ ∀ x ∈ p.2, 1 ≤ x.bodies) →
    NestedLoop m o singleRef scale e calls out → ∀ t ∈ out, Joined t.tensors := by
  intro e
  induction e with
  | nil =>
    rintro calls out _ ⟨rfl, rfl⟩
    simp
  | cons p e ih =>
    obtain ⟨c, names⟩ := p
    rintro calls out h ⟨terms, o1, calls', o2, ht, hr, hl, rfl, rfl⟩ t hmem
    obtain ⟨h2, h3⟩ := h (c, names) (by simp)
    rcases List.mem_append.1 hmem with hmem | hmem
    · have hw := nestedFactors_joined h3 ht
      obtain ⟨g1, g2, -⟩ := nestedFactors_good h2 ht
      exact ContractRun.joined hcanon hord hf g1 g2 (fun t ht => (hw t ht).1) (fun t ht => (hw t ht).2) hr t hmem
    · exact ih (fun q hq => h q (by simp [hq])) hl t hmem

theorem NestedRun.joined {m : Machine} (hcanon : CanonContract m.canon) (hord : m.ord.Lawful) {o : Options} (hf : o.forCommutator = true)
    {level : Nat} {levels : List Nat} (hk : ∀ k ∈ levels, 1 ≤ k) {unitary singleRef : Bool}
    {expansion : List (ℤ × List OpName)} {calls : List (List Term × ℚ)} {out : List Term}
    (h : NestedRun m o level levels unitary singleRef expansion calls out) : ∀ t ∈ out, Joined t.tensors := by
  obtain ⟨all, he, hl, hc⟩ := h
  refine joined_combine (NestedLoop.joined hcanon hord hf ?_ hl) hc
  intro p hp
  obtain ⟨h1, h2, h3⟩ := nestedWords_mem (mem_words_of_sum he.wordSum he.words he.coeff hp)
  refine ⟨h1.le, ?_⟩
  intro x hx
  cases hxh : x.isH with
  | true => rcases (h3 x hx).1 hxh with rfl | rfl <;> simp [OpName.bodies]
  | false => exact hk _ ((h3 x hx).2 hxh)

end Dsrg
