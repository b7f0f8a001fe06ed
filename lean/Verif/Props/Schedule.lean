import Verif.Props.EndToEnd
import Verif.Props.PhysOp
import Verif.Props.Combine
import Verif.Props.Total

/-!
The computations are functions of their arguments: C105.
-/

namespace Dsrg

/-! ### Terms with the same visible parts -/

/-- Terms that the constructor made are equal when their coefficients, tensors and operators are. -/
theorem made_eq {t u : Term} (ht : ∃ ts op c, Term.make ts op c = .ok t) (hu : ∃ ts op c, Term.make ts op c = .ok u) (h : t.visible = u.visible) :
    t = u := by
  obtain ⟨ts, op, c, ht⟩ := ht
  obtain ⟨ts', op', c', hu⟩ := hu
  obtain ⟨-, -, -, rfl⟩ := Term.make_ok.1 ht
  obtain ⟨-, -, -, rfl⟩ := Term.make_ok.1 hu
  simp only [Term.visible, Prod.mk.injEq] at h
  obtain ⟨rfl, e, rfl⟩ := h
  have hp : ts.Perm ts' := (sortTensors_perm ts).symm.trans (e ▸ sortTensors_perm ts')
  have hs : labelsOf ts op = labelsOf ts' op := by
    ext i
    rw [mem_labelsOf, mem_labelsOf]
    exact ((hp.flatMap_right _).append_left _).mem_iff
  rw [e, hs, diagonalOf_perm hp]

theorem list_made_eq : ∀ {l l' : List Term}, (∀ t ∈ l, ∃ ts op c, Term.make ts op c = .ok t) → (∀ t ∈ l', ∃ ts op c, Term.make ts op c = .ok t) →
    l'.map Term.visible = l.map Term.visible → l' = l
  | [], [], _, _, _ => rfl
  | [], _ :: _, _, _, h => by simp at h
  | _ :: _, [], _, _, h => by simp at h
  | a :: l, b :: l', h, h', e => by
    rw [List.map_cons, List.map_cons, List.cons.injEq] at e
    rw [made_eq (h' b (by simp)) (h a (by simp)) e.1,
      list_made_eq (fun t ht => h t (by simp [ht])) (fun t ht => h' t (by simp [ht])) e.2]

/-! ### The iteration order of sets -/

/-- Without labels that occur twice in one factor, `simplify` does not iterate over sets. -/
theorem Term.simplify_order {t : Term} (h : t.diag = ∅) {ord ord' : SetOrder} (hord : ord.Lawful) (hord' : ord'.Lawful) (core removeActive : Bool) :
    t.simplify ord core removeActive = t.simplify ord' core removeActive := by
  have e : ∀ {ord : SetOrder}, ord.Lawful → ord.indices t.diag = [] := by
    intro ord hord
    rw [h, List.eq_nil_iff_forall_not_mem]
    intro i hi
    simpa using (hord.mem_indices _ _).1 hi
  unfold Term.simplify
  rw [e hord, e hord']
  rfl

/-- The result of one contraction of a product does not depend on the iteration order of sets. -/
theorem canonicalizeRow_order {m m' : Machine} (hm : m'.canon = m.canon) (hord : m.ord.Lawful) (hord' : m'.ord.Lawful) {terms : List Term}
    (h : ∀ t ∈ terms, GoodTerm t) (hdis : ∀ t ∈ terms, Distinct t) (hd : terms.Pairwise DisjointLabels) {maxCu maxOpen minOpen : Int}
    {expand : Bool} {c : List Tensor} (hA : Allowed (productOps terms) maxCu maxOpen minOpen c) {row : Row}
    (hrow : row ∈ resultRows (productOps terms) expand c) (k : ℚ) (hermitian : Bool) :
    canonicalizeRow m' (productTensors terms) k hermitian row = canonicalizeRow m (productTensors terms) k hermitian row := by
  unfold canonicalizeRow
  cases ht : Term.make (productTensors terms ++ row.2.1) row.2.2 (row.1 * k) with
  | error e => rfl
  | ok t =>
    have hp := row_paired h hd hA hrow
    have hden := resultRows_density hA row hrow
    have hdiag : t.diag = ∅ := by
      obtain ⟨-, -, -, rfl⟩ := Term.make_ok.1 ht
      refine diagonal_empty (List.nodup_append.1 hp.outer).1 fun x hx => ?_
      rcases List.mem_append.1 hx with hx | hx
      · obtain ⟨t, ht, hx⟩ := List.mem_flatMap.1 hx
        exact (hdis t ht).2 x hx
      · exact (List.nodup_flatMap.1 (List.nodup_append.1 hp.outer).2.1).1 x
          (List.mem_filter.2 ⟨List.mem_append_right _ hx, (hden x hx).isDensity⟩)
    show t.canonicalizeSympy m'.canon m'.ord true true hermitian = t.canonicalizeSympy m.canon m.ord true true hermitian
    rw [canonicalizeSympy_eq, canonicalizeSympy_eq, hm, Term.simplify_order hdiag hord hord']

theorem mapM_congr_mem {α β ε : Type} {f g : α → Except ε β} : ∀ {l : List α}, (∀ a ∈ l, f a = g a) → l.mapM f = l.mapM g
  | [], _ => rfl
  | a :: l, h => by
    rw [List.mapM_cons, List.mapM_cons, h a (by simp), mapM_congr_mem fun b hb => h b (by simp [hb])]

theorem BatchRun.order {m m' : Machine} {n : Nat} {rows : List Row} {tensors : List Tensor} {coeff : ℚ} {simplify hermitian : Bool} {out : List Term}
    (h : ∀ row ∈ rows, canonicalizeRow m' tensors coeff hermitian row = canonicalizeRow m tensors coeff hermitian row)
    (hr : BatchRun m' n rows tensors coeff simplify hermitian out) : BatchRun m n rows tensors coeff simplify hermitian out := by
  unfold BatchRun at hr ⊢
  rw [mapM_congr_mem h] at hr
  exact hr

theorem LoopRun.order {m m' : Machine} {o : Options} {n : Nat} {tensors : List Tensor} {coeff : ℚ} : ∀ {batches : List (List Row)} {pending : List Row}
    {out : List Term}, (∀ row ∈ pending ++ batches.flatten, canonicalizeRow m' tensors coeff o.hermitian row = canonicalizeRow m tensors coeff o.hermitian row) →
    LoopRun m' o n tensors coeff pending batches out → LoopRun m o n tensors coeff pending batches out := by
  intro batches
  induction batches with
  | nil => intro pending out h hr; exact BatchRun.order (fun row hrow => h row (by simp [hrow])) hr
  | cons b batches ih =>
    intro pending out h hr
    unfold LoopRun at hr ⊢
    split_ifs at hr ⊢ with hlt
    · exact ih (fun row hrow => h row (by rw [List.flatten_cons, ← List.append_assoc]; exact hrow)) hr
    · obtain ⟨o1, o2, h1, h2, e⟩ := hr
      refine ⟨o1, o2, BatchRun.order (fun row hrow => h row ?_) h1, ih (fun row hrow => h row ?_) h2, e⟩
      · rw [List.flatten_cons, ← List.append_assoc]; exact List.mem_append_left _ hrow
      · rw [List.flatten_cons, ← List.append_assoc]; exact List.mem_append_right _ (by simpa using hrow)

theorem ContractRun.order {m m' : Machine} (hm : m'.canon = m.canon) (hord : m.ord.Lawful) (hord' : m'.ord.Lawful) {o : Options} {terms : List Term}
    (h : ∀ t ∈ terms, GoodTerm t) (hdis : ∀ t ∈ terms, Distinct t) (hd : terms.Pairwise DisjointLabels) {scale : ℚ} {out : List Term}
    (hr : ContractRun m' o terms scale out) : ContractRun { m with cpus := m'.cpus } o terms scale out := by
  match terms, hr with
  | first :: rest, hr =>
    unfold ContractRun at hr ⊢
    simp only at hr ⊢
    split_ifs at hr ⊢ with hlt
    · exact hr
    · obtain ⟨batches, all, hb, ha, hc⟩ := hr
      obtain ⟨cs, -, -, hall, hperm⟩ := contractions_spec (goodOps_productOps (ordinary_of_good h hd).ops) hb
      refine ⟨batches, all, hb, LoopRun.order ?_ ha, hc⟩
      intro row hrow
      rw [List.nil_append] at hrow
      obtain ⟨c, hcm, hrc⟩ := List.mem_flatMap.1 (hperm.mem_iff.1 hrow)
      exact canonicalizeRow_order (m := { m with cpus := m'.cpus }) hm hord hord' h hdis hd (hall c hcm) hrc _ _

theorem CommutatorRun.order {m m' : Machine} (hm : m'.canon = m.canon) (hord : m.ord.Lawful) (hord' : m'.ord.Lawful) {o : Options} {a b : Term}
    (ha : GoodTerm a) (hb : GoodTerm b) (hda : Distinct a) (hdb : Distinct b) (hd : DisjointLabels a b) {scale : ℚ} {out : List Term}
    (hr : CommutatorRun m' o a b scale out) : CommutatorRun { m with cpus := m'.cpus } o a b scale out := by
  unfold CommutatorRun at hr ⊢
  split_ifs at hr ⊢ with h0
  · exact hr
  · obtain ⟨o1, o2, h1, h2, hc⟩ := hr
    exact ⟨o1, o2, h1.order hm hord hord' (by simpa using ⟨ha, hb⟩) (by simpa using ⟨hda, hdb⟩) (by simpa using hd),
      h2.order hm hord hord' (by simpa using ⟨hb, ha⟩) (by simpa using ⟨hdb, hda⟩) (List.pairwise_pair.2 (Disjoint.symm hd)), hc⟩

theorem ddcaMap_order {order order' labels : List Index} {spaces : List Space} (start : Nat) (hn : labels.Nodup) (hl : labels.length = spaces.length)
    (ho : ∀ i ∈ order, i ∈ labels) (ho' : ∀ i ∈ order', i ∈ labels) :
    ddcaMap order labels spaces start = ddcaMap order' labels spaces start := by
  have h0 : FreshDict [] (fun _ => start) start := ⟨by simp, by simp, by simp, by simp, by simp, by simp⟩
  obtain ⟨new, h1, h2, -⟩ := ddcaFold_spec labels spaces ([], fun _ => start) h0 hn (by simp) hl
  have hlen : labels.length = new.length := by rw [hl, ← h1, List.length_map]
  have hkeys : ∀ i ∈ labels, i ∈ (((labels.zip spaces).foldl (fun (st : Dict Index Index × (Space → Nat)) e =>
        let g := generateNextIndex e.2 st.2
        (dictSet st.1 e.1 g.1, g.2)) ([], fun _ => start)).1).map Prod.fst := by
    intro i hi
    rw [h2, List.nil_append, List.map_fst_zip hlen.le]
    exact hi
  unfold ddcaMap
  simp only
  rw [minimalFactor_idle fun i hi => hkeys i (ho i hi), minimalFactor_idle fun i hi => hkeys i (ho' i hi)]

/-- Blocks of a term whose labels are all labels of the operator: another iteration order of sets gives the same blocks in another order. -/
theorem makeDdca_order {ord ord' : SetOrder} (hord : ord.Lawful) (hord' : ord'.Lawful) {t : Term} (hset : ∀ i ∈ t.indicesSet, i ∈ t.sqOp.indices)
    (hnod : t.sqOp.indices.Nodup) {maxCore maxVirt : Int} {singleRef : Bool} {start : Nat} {rows rows' : List Term}
    (h : t.makeDdca ord maxCore maxVirt singleRef start = .ok rows) (h' : t.makeDdca ord' maxCore maxVirt singleRef start = .ok rows') :
    rows.Perm rows' := by
  have f := makeDdca_rows h
  have f' := makeDdca_rows h'
  clear h h'
  have hp : ((pyProduct (t.sqOp.indices.map fun i => ord.spaces i.space.relation)).filter (ddcaKeeps maxCore maxVirt singleRef)).Perm
      ((pyProduct (t.sqOp.indices.map fun i => ord'.spaces i.space.relation)).filter (ddcaKeeps maxCore maxVirt singleRef)) := by
    refine List.Perm.filter _ ((List.perm_ext_iff_of_nodup (nodup_pyProduct ?_) (nodup_pyProduct ?_)).2 fun sp => ?_)
    · simp [hord.spaces_nodup]
    · simp [hord'.spaces_nodup]
    · rw [mem_pyProduct, mem_pyProduct, List.forall₂_map_right_iff, List.forall₂_map_right_iff]
      simp only [hord.mem_spaces, hord'.mem_spaces]
  obtain ⟨rows₂, f₂, hperm⟩ := List.perm_comp_forall₂ hp f'
  refine List.Perm.trans (List.Perm.of_eq ?_) hperm
  have hlen : ∀ sp ∈ (pyProduct (t.sqOp.indices.map fun i => ord.spaces i.space.relation)).filter (ddcaKeeps maxCore maxVirt singleRef),
      t.sqOp.indices.length = sp.length := by
    intro sp hsp
    have := (mem_pyProduct.1 (List.mem_filter.1 hsp).1).length_eq
    rw [this, List.length_map]
  revert f f₂ hlen
  generalize (pyProduct (t.sqOp.indices.map fun i => ord.spaces i.space.relation)).filter (ddcaKeeps maxCore maxVirt singleRef) = P
  intro f f₂ hlen
  clear hp f' hperm
  induction f generalizing rows₂ with
  | nil => cases f₂; rfl
  | cons a f ih =>
    cases f₂ with
    | cons a₂ f₂ =>
      rw [ih _ f₂ fun sp hsp => hlen sp (by simp [hsp])]
      rw [ddcaMap_order start hnod (hlen _ (by simp)) (fun i hi => hset i ((hord.mem_indices _ _).1 hi)) (fun i hi => hset i ((hord'.mem_indices _ _).1 hi)), a₂] at a
      injection a with a
      rw [a]

theorem hamiltonian_ddca_order {ord ord' : SetOrder} (hord : ord.Lawful) (hord' : ord'.Lawful) {k : Nat} {t : Term}
    (ht : hamiltonianOperator k 0 .spinOrbital = .ok t) {maxCore maxVirt : Int} {singleRef : Bool} {start : Nat} {rows rows' : List Term}
    (hrows : t.makeDdca ord maxCore maxVirt singleRef start = .ok rows) (hrows' : t.makeDdca ord' maxCore maxVirt singleRef start = .ok rows') :
    rows.Perm rows' := by
  obtain ⟨ts, op, c, hmk⟩ := hamiltonian_made ht
  obtain ⟨t', x, h1, h2, -, -, -, -, h7, h8, -⟩ := C38_hamiltonian k 0 .spinOrbital
  obtain rfl : t = t' := by rw [ht] at h1; injection h1
  have hset : ∀ i ∈ t.indicesSet, i ∈ t.sqOp.indices := by
    intro i hi
    obtain ⟨-, -, -, e⟩ := Term.make_ok.1 hmk
    have hi : i ∈ labelList t.tensors t.sqOp := by
      rw [← mem_labelsOf]
      subst e
      rw [labelsOf_perm (sortTensors_perm ts)]
      exact hi
    rw [h2] at hi
    unfold labelList at hi
    show i ∈ t.sqOp.upper.list ++ t.sqOp.lower.list
    rw [List.flatMap_cons, List.flatMap_nil, List.append_nil, ← h7, ← h8] at hi
    simp only [List.mem_append] at hi ⊢
    tauto
  have hnod : t.sqOp.indices.Nodup := by
    have hx : (x.upper.list ++ x.lower.list).Nodup := (hamiltonian_distinct ht).2 x (by simp [h2])
    show (t.sqOp.upper.list ++ t.sqOp.lower.list).Nodup
    rw [h7, h8]
    exact (List.perm_append_comm.nodup_iff).1 hx
  exact makeDdca_order hord hord' hset hnod hrows hrows'

/-- The blocks of the Hamiltonian do not depend on the iteration order of sets. -/
theorem expandedHamiltonian_order {ord ord' : SetOrder} (hord : ord.Lawful) (hord' : ord'.Lawful) {k : Nat} {out out' : List Term}
    (h : expandedHamiltonian ord k = .ok out) (h' : expandedHamiltonian ord' k = .ok out') : out' = out := by
  have hd := expandedHamiltonian_distinct hord h
  have hd' := expandedHamiltonian_distinct hord' h'
  unfold expandedHamiltonian at h h'
  obtain ⟨t, ht, h⟩ := bind_ok h
  obtain ⟨t', ht', h'⟩ := bind_ok h'
  obtain rfl : t = t' := by rw [ht] at ht'; injection ht'
  obtain ⟨rows, hrows, h⟩ := bind_ok h
  obtain ⟨rows', hrows', h'⟩ := bind_ok h'
  have hg := expand_good hord ht hrows
  have hperm : rows.Perm rows' := hamiltonian_ddca_order hord hord' ht hrows hrows'
  obtain ⟨o1, o2, e1, e2, e3⟩ := C50_order .spinOrbital _ _ (regular_of_good fun t ht => (hg t ht).1) hperm
  rw [h] at e1
  rw [h'] at e2
  injection e1 with e1
  injection e2 with e2
  subst e1 e2
  exact list_made_eq (fun t ht => (hd t ht).1.1) (fun t ht => (hd' t ht).1.1) e3.symm

theorem bchStart_order {ord ord' : SetOrder} (hord : ord.Lawful) (hord' : ord'.Lawful) {out out' : List Term}
    (h : bchStart ord = .ok out) (h' : bchStart ord' = .ok out') : out' = out := by
  unfold bchStart at h h'
  obtain ⟨a, ha, h⟩ := bind_ok h
  obtain ⟨b, hb, h⟩ := bind_ok h
  obtain ⟨a', ha', h'⟩ := bind_ok h'
  obtain ⟨b', hb', h'⟩ := bind_ok h'
  injection h with h
  injection h' with h'
  rw [← h, ← h', expandedHamiltonian_order hord hord' ha ha', expandedHamiltonian_order hord hord' hb hb']

/-! ### The loops -/

theorem ContractRun.determined {m m' : Machine} (hm : m'.canon = m.canon) (hcanon : CanonContract m.canon) (hord : m.ord.Lawful) (hord' : m'.ord.Lawful) {o : Options} {terms : List Term}
    (h : ∀ t ∈ terms, GoodTerm t) (hdis : ∀ t ∈ terms, Distinct t) (hd : terms.Pairwise DisjointLabels) {scale : ℚ} {out out' : List Term}
    {nProcess : Nat} (hr : ContractRun m o terms scale out)
    (hr' : ContractRun m' { o with nProcess := nProcess } terms scale out') : out' = out :=
  list_made_eq (fun t ht => (ContractRun.distinct hcanon hord h (fun t ht => (hdis t ht).2) hd hr t ht).1)
    (fun t ht => (ContractRun.distinct (m := m') (hm ▸ hcanon) hord' h (fun t ht => (hdis t ht).2) hd hr' t ht).1)
    ((C50_contract_terms m o terms (ordinary_of_good h hd) scale out hr nProcess m'.cpus).2 out' (hr'.order hm hord hord' h hdis hd))

theorem CommutatorRun.determined {m m' : Machine} (hm : m'.canon = m.canon) (hcanon : CanonContract m.canon) (hord : m.ord.Lawful) (hord' : m'.ord.Lawful) {o : Options} {a b : Term}
    (ha : GoodTerm a) (hb : GoodTerm b) (hda : Distinct a) (hdb : Distinct b) (hd : DisjointLabels a b) {scale : ℚ} {out out' : List Term}
    {nProcess : Nat} (hr : CommutatorRun m o a b scale out)
    (hr' : CommutatorRun m' { o with nProcess := nProcess } a b scale out') : out' = out :=
  list_made_eq (fun t ht => (CommutatorRun.distinct hcanon hord ha hb hda.2 hdb.2 hd hr t ht).1)
    (fun t ht => (CommutatorRun.distinct (m := m') (hm ▸ hcanon) hord' ha hb hda.2 hdb.2 hd hr' t ht).1)
    (C50_single_commutator m o a b (ordinary_of_good (by simpa using ⟨ha, hb⟩) (by simpa using hd)) scale out hr nProcess m'.cpus out' (hr'.order hm hord hord' ha hb hda hdb hd))

theorem CommutatorsRun.determined {m m' : Machine} (hm : m'.canon = m.canon) (hcanon : CanonContract m.canon) (hord : m.ord.Lawful) (hord' : m'.ord.Lawful) {o : Options} {scale : ℚ} {nProcess : Nat} :
    ∀ {pairs : List (Term × Term)} {out out' : List Term},
      (∀ p ∈ pairs, GoodTerm p.1 ∧ GoodTerm p.2 ∧ Distinct p.1 ∧ Distinct p.2 ∧ DisjointLabels p.1 p.2) →
      CommutatorsRun m o scale pairs out → CommutatorsRun m' { o with nProcess := nProcess } scale pairs out' →
      out' = out ∧ ∀ t ∈ out, Distinct t := by
  intro pairs
  induction pairs with
  | nil =>
    intro out out' _ h h'
    rw [show out = [] from h, show out' = [] from h']
    simp
  | cons p pairs ih =>
    rintro out out' hp ⟨o₁, o₂, h1, h2, rfl⟩ ⟨o₁', o₂', h1', h2', rfl⟩
    obtain ⟨g1, g2, d1, d2, d⟩ := hp p (by simp)
    obtain ⟨rfl, k⟩ := ih (fun q hq => hp q (by simp [hq])) h2 h2'
    rw [CommutatorRun.determined hm hcanon hord hord' g1 g2 d1 d2 d h1 h1']
    refine ⟨rfl, fun t ht => ?_⟩
    rcases List.mem_append.1 ht with ht | ht
    · exact CommutatorRun.distinct hcanon hord g1 g2 d1.2 d2.2 d h1 t ht
    · exact k t ht

theorem distinct_combine {all out : List Term} (h : ∀ t ∈ all, Distinct t) (hr : combineTerms all = .ok out) : ∀ t ∈ out, Distinct t :=
  combine_all (fun _ c h => h.coeff c) h hr

theorem distinct_copies {all copies : List Term} (h : ∀ t ∈ all, Distinct t) (hr : (all.mapM fun t => t.fromTerm false false) = .ok copies) :
    ∀ t ∈ copies, Distinct t := by
  intro t ht
  obtain ⟨s, hs, e⟩ := forall₂_mem_right (mapM_ok_forall₂.1 hr) ht
  obtain ⟨op, h1, h2⟩ := bind_ok e
  exact Distinct.of_make h2 (h s hs).2

theorem RecursiveRun.determined {m m' : Machine} (hm : m'.canon = m.canon) (hcanon : CanonContract m.canon) (hord : m.ord.Lawful) (hord' : m'.ord.Lawful) {o : Options} {nProcess : Nat} :
    ∀ {levels : List (Term × Int × Int × Int)} {pool : List Term} {N : Nat} {outs outs' : List (List Term)}, GoodList N pool → (∀ t ∈ pool, Distinct t) →
      (∀ l ∈ levels, GoodTerm l.1 ∧ Distinct l.1) → (∀ pre l post, levels = pre ++ l :: post → ∀ i ∈ labelsOf l.1.tensors l.1.sqOp,
        N + (pre.map fun l => (labelsOf l.1.tensors l.1.sqOp).card).sum ≤ i.number) →
      RecursiveRun m o pool levels outs → RecursiveRun m' { o with nProcess := nProcess } pool levels outs' → outs' = outs := by
  intro levels
  induction levels with
  | nil =>
    intro pool N outs outs' _ _ _ _ h h'
    rw [show outs = [] from h, show outs' = [] from h']
  | cons x levels ih =>
    obtain ⟨right, maxCu, minOpen, maxOpen⟩ := x
    rintro pool N outs outs' hp hdp hl hnum ⟨all, out, outs, h1, h2, h3, rfl⟩ ⟨all', out', outs', h1', h2', h3', rfl⟩
    obtain ⟨hg, hdr⟩ := hl _ (List.mem_cons_self ..)
    have hrn : ∀ i ∈ labelsOf right.tensors right.sqOp, N ≤ i.number := fun i hi => by simpa using hnum [] _ levels rfl i hi
    have hpair : ∀ p ∈ pool.map fun l => (l, right), GoodTerm p.1 ∧ GoodTerm p.2 ∧ DisjointLabels p.1 p.2 ∧
        (labelsOf p.1.tensors p.1.sqOp).card + (labelsOf p.2.tensors p.2.sqOp).card ≤ N + (labelsOf right.tensors right.sqOp).card := by
      intro p hpm
      obtain ⟨l, hl, rfl⟩ := List.mem_map.1 hpm
      exact ⟨(hp l hl).1, hg, disjointLabels_of_numbers (hp l hl).2.number hrn, Nat.add_le_add_right (hp l hl).2.card _⟩
    obtain ⟨rfl, hall⟩ := CommutatorsRun.determined hm hcanon hord hord' (o := { o with maxCu := maxCu, maxOpen := maxOpen, minOpen := minOpen })
      (nProcess := nProcess) (by
        intro p hpm
        obtain ⟨k1, k2, k3, -⟩ := hpair p hpm
        obtain ⟨l, hl, rfl⟩ := List.mem_map.1 hpm
        exact ⟨k1, k2, hdp l hl, hdr, k3⟩) h1 h1'
    obtain rfl : out = out' := by rw [h2] at h2'; injection h2'
    rw [ih ((CommutatorsRun.good hcanon hord hpair h1).combine h2) (distinct_combine hall h2) (fun l hl' => hl l (by simp [hl'])) (by
      intro pre l post e i hi
      have := hnum ((right, maxCu, minOpen, maxOpen) :: pre) l post (by rw [e]; rfl) i hi
      simp only [List.map_cons, List.sum_cons] at this
      omega) h3 h3']

theorem BchLevels.determined {m m' : Machine} (hm : m'.canon = m.canon) (hcanon : CanonContract m.canon) (hord : m.ord.Lawful) (hord' : m'.ord.Lawful) {o : Options} {nProcess : Nat}
    {levels : List Nat} (hk : ∀ k ∈ levels, 1 ≤ k) {unitary singleRef : Bool} {maxLevel : Nat} (hmax : ∀ k ∈ levels, k ≤ maxLevel) :
    ∀ {limits : List (Int × Int × Int)} {i : Nat} {pool : List Term} {calls calls' : List (List (Term × Term))} {outs outs' : List (List Term)},
      GoodList (i * (maxLevel * 2) + 4) pool → (∀ t ∈ pool, Distinct t) →
      BchLevels m o levels unitary singleRef (maxLevel * 2) i pool limits calls outs →
      BchLevels m' { o with nProcess := nProcess } levels unitary singleRef (maxLevel * 2) i pool limits calls' outs' →
      calls' = calls ∧ outs' = outs := by
  intro limits
  induction limits with
  | nil =>
    rintro i pool calls calls' outs outs' - - ⟨rfl, rfl⟩ ⟨rfl, rfl⟩
    exact ⟨rfl, rfl⟩
  | cons x limits ih =>
    obtain ⟨maxCu, minOpen, maxOpen⟩ := x
    rintro i pool calls calls' outs outs' hp hdp ⟨amps, all, copies, out, pool₁, calls, outs, h1, h2, h3, h4, h5, h6, rfl, rfl⟩
      ⟨amps', all', copies', out', pool₁', calls', outs', h1', h2', h3', h4', h5', h6', rfl, rfl⟩
    obtain rfl : amps = amps' := by rw [h1] at h1'; injection h1'
    have hpairs := level_pairs hmax hp h1
    have hamp := clusterOperators_writable hk h1
    obtain ⟨rfl, hall⟩ := CommutatorsRun.determined hm hcanon hord hord' (o := { o with maxCu := maxCu, maxOpen := maxOpen, minOpen := minOpen })
      (nProcess := nProcess) (by
        intro p hpm
        obtain ⟨k1, k2, k3, -⟩ := hpairs p hpm
        obtain ⟨l, hl, hpm⟩ := List.mem_flatMap.1 hpm
        obtain ⟨r, hr, rfl⟩ := List.mem_map.1 hpm
        exact ⟨k1, k2, hdp l hl, (hamp r hr).distinct, k3⟩) h2 h2'
    obtain rfl : copies = copies' := by rw [h3] at h3'; injection h3'
    obtain rfl : out = out' := by rw [h4] at h4'; injection h4'
    obtain rfl : pool₁ = pool₁' := by rw [h5] at h5'; injection h5'
    have g3 := (((CommutatorsRun.good hcanon hord hpairs h2).copies h3).combine h4).copies h5
    rw [show i * (maxLevel * 2) + 4 + maxLevel * 2 = (i + 1) * (maxLevel * 2) + 4 by ring] at g3
    obtain ⟨rfl, rfl⟩ := ih g3 (distinct_copies (distinct_combine (distinct_copies hall h3) h4) h5) h6 h6'
    exact ⟨rfl, rfl⟩

/-! ### SymPy's products -/

/-- Two lists of different words with coefficients that are not zero and the same sum have the same members. -/
theorem expansion_perm {e e' : List (ℤ × List OpName)} {x : FreeAlgebra ℤ OpName} (h : IsExpansion e x) (h' : IsExpansion e' x) : e.Perm e' := by
  have key : ∀ {e e' : List (ℤ × List OpName)}, IsExpansion e x → IsExpansion e' x → e ⊆ e' := by
    intro e e' h h' p hp
    have hw : wordSum e = wordSum e' := h.sum.trans h'.sum.symm
    have e1 := mem_words_of_sum hw h.words h.coeff hp
    obtain ⟨q, hq, e2⟩ := List.mem_map.1 e1
    have val : ∀ {l : List (ℤ × List OpName)} {r : ℤ × List OpName}, (l.map Prod.snd).Nodup → r ∈ l → r.2 = p.2 →
        (l.map fun s => s.1 • (if s.2 = p.2 then (1 : ℤ) else 0)).sum = r.1 := by
      intro l r hn hr er
      induction l with
      | nil => simp at hr
      | cons s l ih =>
        rw [List.map_cons, List.nodup_cons] at hn
        rw [List.map_cons, List.sum_cons]
        rcases List.mem_cons.1 hr with rfl | hr
        · have : (l.map fun s => s.1 • (if s.2 = p.2 then (1 : ℤ) else 0)).sum = 0 := by
            refine List.sum_eq_zero fun y hy => ?_
            obtain ⟨s, hs, rfl⟩ := List.mem_map.1 hy
            rw [if_neg, smul_zero]
            intro es
            exact hn.1 (List.mem_map.2 ⟨s, hs, by rw [es, er]⟩)
          rw [this, if_pos er]; simp
        · have : s.2 ≠ p.2 := fun es => hn.1 (List.mem_map.2 ⟨r, hr, by rw [es, er]⟩)
          rw [if_neg this, smul_zero, zero_add, ih hn.2 hr]
    have := wordSum_functional hw (fun w => if w = p.2 then (1 : ℤ) else 0)
    rw [val h.words hp rfl, val h'.words hq e2] at this
    have : p = q := Prod.ext this e2.symm
    rw [this]; exact hq
  exact (List.perm_ext_iff_of_nodup (List.Nodup.of_map _ h.words) (List.Nodup.of_map _ h'.words)).2 fun p =>
    ⟨fun hp => key h h' hp, fun hp => key h' h hp⟩

/-- The loop over the products, as a list of results. -/
theorem NestedLoop.rows {m : Machine} {o : Options} {singleRef : Bool} {scale : ℚ} : ∀ {e : List (ℤ × List OpName)} {calls : List (List Term × ℚ)}
    {out : List Term}, NestedLoop m o singleRef scale e calls out → ∃ rows : List (List Term), out = rows.flatten ∧
      List.Forall₂ (fun p row => ∃ terms, nestedFactors singleRef 0 p.2 = .ok terms ∧ ContractRun m o terms (scale * p.1) row) e rows := by
  intro e
  induction e with
  | nil =>
    rintro calls out ⟨-, rfl⟩
    exact ⟨[], rfl, .nil⟩
  | cons p e ih =>
    obtain ⟨c, names⟩ := p
    rintro calls out ⟨terms, o1, calls', o2, ht, hr, hl, -, rfl⟩
    obtain ⟨rows, rfl, h⟩ := ih hl
    exact ⟨o1 :: rows, by simp, .cons ⟨terms, ht, hr⟩ h⟩

theorem forall₂_perm_flatten {α β : Type} {R R' : α → List β → Prop} {l l' : List α} {rows rows' : List (List β)}
    (h : List.Forall₂ R l rows) (h' : List.Forall₂ R' l' rows') (hp : l.Perm l') (hdet : ∀ a ∈ l, ∀ r r', R a r → R' a r' → r' = r) :
    rows.flatten.Perm rows'.flatten := by
  classical
  let f : α → List β := fun a => if h : ∃ r, R' a r then h.choose else []
  have hf : ∀ a ∈ l, R' a (f a) := by
    intro a ha
    obtain ⟨r, -, hr⟩ := forall₂_mem_left h' (hp.mem_iff.1 ha)
    have hx : ∃ r, R' a r := ⟨r, hr⟩
    simp only [f, dif_pos hx]
    exact hx.choose_spec
  have e : rows = l.map f := by
    have : List.Forall₂ (fun a r => r = f a) l rows := forall₂_imp_mem h fun a ha r hr => (hdet a ha r (f a) hr (hf a ha)).symm
    clear h h' hp hdet hf
    induction this with
    | nil => rfl
    | cons a _ ih => rw [a, ih, List.map_cons]
  have e' : rows' = l'.map f := by
    have : List.Forall₂ (fun a r => r = f a) l' rows' := by
      refine forall₂_imp_mem h' fun a ha r hr => ?_
      obtain ⟨s, -, hs⟩ := forall₂_mem_left h (hp.mem_iff.2 ha)
      rw [hdet a (hp.mem_iff.2 ha) s r hs hr, hdet a (hp.mem_iff.2 ha) s (f a) hs (hf a (hp.mem_iff.2 ha))]
    clear h h' hp hdet hf e
    induction this with
    | nil => rfl
    | cons a _ ih => rw [a, ih, List.map_cons]
  rw [e, e']
  exact (hp.map f).flatten

/-! ### C105 -/

/-- `contract_terms`: two calls on the same terms return equal lists, whatever the number of processes, of processors, and the order in which
the workers finish. -/
theorem C105_contract_terms (m m' : Machine) (hm : m'.canon = m.canon) (hcanon : CanonContract m.canon) (hord : m.ord.Lawful)
    (hord' : m'.ord.Lawful) (hcpu : 1 ≤ m.cpus) (o : Options)
    (terms : List Term) (h : ∀ t ∈ terms, LibraryTerm m t) (hd : terms.Pairwise DisjointLabels) (scale : ℚ) (nProcess : Nat)
    (out out' : List Term) (hr : ContractRun m o terms scale out)
    (hr' : ContractRun m' { o with nProcess := nProcess } terms scale out') : out' = out :=
  ContractRun.determined hm hcanon hord hord' (fun t ht => ((h t ht).nice hcanon hord hcpu).1) (fun t ht => (h t ht).distinct hcanon hord hcpu) hd hr hr'

/-- `single_commutator`. -/
theorem C105_single_commutator (m m' : Machine) (hm : m'.canon = m.canon) (hcanon : CanonContract m.canon) (hord : m.ord.Lawful)
    (hord' : m'.ord.Lawful) (hcpu : 1 ≤ m.cpus) (o : Options)
    (left right : Term) (hl : LibraryTerm m left) (hr : LibraryTerm m right) (hd : DisjointLabels left right) (scale : ℚ) (nProcess : Nat)
    (out out' : List Term) (h : CommutatorRun m o left right scale out)
    (h' : CommutatorRun m' { o with nProcess := nProcess } left right scale out') : out' = out :=
  CommutatorRun.determined hm hcanon hord hord' (hl.nice hcanon hord hcpu).1 (hr.nice hcanon hord hcpu).1 (hl.distinct hcanon hord hcpu)
    (hr.distinct hcanon hord hcpu) hd h h'

/-- `linear_commutator`. -/
theorem C105_linear_commutator (m m' : Machine) (hm : m'.canon = m.canon) (hcanon : CanonContract m.canon) (hord : m.ord.Lawful)
    (hord' : m'.ord.Lawful) (hcpu : 1 ≤ m.cpus) (o : Options)
    (lefts rights : List Term) (hl : ∀ t ∈ lefts, LibraryTerm m t) (hr : ∀ t ∈ rights, LibraryTerm m t)
    (hd : ∀ a ∈ lefts, ∀ b ∈ rights, DisjointLabels a b) (scale : ℚ) (nProcess : Nat) (out out' : List Term)
    (h : LinearCommutatorRun m o lefts rights scale out)
    (h' : LinearCommutatorRun m' { o with nProcess := nProcess } lefts rights scale out') : out' = out := by
  obtain ⟨all, h1, h2⟩ := h
  obtain ⟨all', h1', h2'⟩ := h'
  obtain ⟨rfl, -⟩ := CommutatorsRun.determined hm hcanon hord hord' (o := { o with expandHole := true }) (nProcess := nProcess) (by
    intro p hp
    obtain ⟨l, hlm, hp⟩ := List.mem_flatMap.1 hp
    obtain ⟨r, hrm, rfl⟩ := List.mem_map.1 hp
    exact ⟨((hl l hlm).nice hcanon hord hcpu).1, ((hr r hrm).nice hcanon hord hcpu).1, (hl l hlm).distinct hcanon hord hcpu,
      (hr r hrm).distinct hcanon hord hcpu, hd l hlm r hrm⟩) h1 h1'
  rw [h2] at h2'
  injection h2' with e
  exact e.symm

/-- `recursive_single_commutator`, every level; the numbers of the labels of each term exceed those in use, as in C76. -/
theorem C105_recursive_single_commutator (m m' : Machine) (hm : m'.canon = m.canon) (hcanon : CanonContract m.canon) (hord : m.ord.Lawful)
    (hord' : m'.ord.Lawful) (hcpu : 1 ≤ m.cpus) (o : Options)
    (first : Term) (levels : List (Term × Int × Int × Int)) (hf : LibraryTerm m first) (hl : ∀ l ∈ levels, LibraryTerm m l.1)
    (N : Nat) (hN : (labelsOf first.tensors first.sqOp).card ≤ N ∧ ∀ i ∈ labelsOf first.tensors first.sqOp, i.number < N)
    (hnum : ∀ pre l post, levels = pre ++ l :: post → ∀ i ∈ labelsOf l.1.tensors l.1.sqOp,
      N + (pre.map fun l => (labelsOf l.1.tensors l.1.sqOp).card).sum ≤ i.number) (nProcess : Nat) (outs outs' : List (List Term))
    (h : RecursiveRun m o [first] levels outs) (h' : RecursiveRun m' { o with nProcess := nProcess } [first] levels outs') :
    outs' = outs :=
  RecursiveRun.determined hm hcanon hord hord' (N := N) (by
      intro t ht
      obtain rfl : t = first := by simpa using ht
      exact ⟨(hf.nice hcanon hord hcpu).1, hN.1, hN.2⟩) (by simpa using hf.distinct hcanon hord hcpu)
    (fun l hl' => ⟨((hl l hl').nice hcanon hord hcpu).1, (hl l hl').distinct hcanon hord hcpu⟩) hnum h h'

/-- `bch_cc_rsc`, every level, and the commutators that it asks for. -/
theorem C105_bch_cc_rsc (m m' : Machine) (hm : m'.canon = m.canon) (hcanon : CanonContract m.canon) (hord : m.ord.Lawful)
    (hord' : m'.ord.Lawful) (o : Options) (levels : List Nat)
    (hk : ∀ k ∈ levels, 1 ≤ k) (unitary singleRef : Bool) (limits : List (Int × Int × Int)) (nProcess : Nat)
    (calls calls' : List (List (Term × Term))) (outs outs' : List (List Term)) (h : BchRun m o levels unitary singleRef limits calls outs)
    (h' : BchRun m' { o with nProcess := nProcess } levels unitary singleRef limits calls' outs') :
    calls' = calls ∧ outs' = outs := by
  obtain ⟨maxLevel, start, rest, h1, h2, h3, rfl⟩ := h
  obtain ⟨maxLevel', start', rest', h1', h2', h3', rfl⟩ := h'
  obtain rfl : maxLevel = maxLevel' := by rw [h1] at h1'; injection h1'
  obtain rfl : start' = start := bchStart_order hord hord' h2 h2'
  obtain ⟨rfl, rfl⟩ := BchLevels.determined hm hcanon hord hord' hk (fun k hk => (List.max?_eq_some_iff.1 h1).2 k hk) (by simpa using (bchStart_good hord h2).1)
    (fun t ht => (bchStart_writable hord h2 t ht).distinct) h3 h3'
  exact ⟨rfl, rfl⟩

/-- `nested_commutator_cc`, also when SymPy lists the products of the expanded commutator in another order. -/
theorem C105_nested_commutator_cc (m m' : Machine) (hm : m'.canon = m.canon) (hcanon : CanonContract m.canon) (hord : m.ord.Lawful)
    (hord' : m'.ord.Lawful) (hcpu : 1 ≤ m.cpus) (o : Options)
    (hn : 1 ≤ o.nProcess) (level : Nat) (levels : List Nat) (hk : ∀ k ∈ levels, 1 ≤ k) (unitary singleRef : Bool) (nProcess : Nat)
    (expansion expansion' : List (ℤ × List OpName)) (calls calls' : List (List Term × ℚ)) (out out' : List Term)
    (h : NestedRun m o level levels unitary singleRef expansion calls out)
    (h' : NestedRun m' { o with nProcess := nProcess } level levels unitary singleRef expansion' calls' out') :
    out' = out := by
  obtain ⟨all, he, hl, hc⟩ := h
  obtain ⟨all', he', hl', hc'⟩ := h'
  have hwords : ∀ {e : List (ℤ × List OpName)}, IsExpansion e (symbolicCommutator level levels unitary) → ∀ p ∈ e, p.2.countP OpName.isH ≤ 1 ∧
      ∀ x ∈ p.2, 1 ≤ x.bodies := by
    intro e he p hp
    obtain ⟨h1, h2, h3⟩ := nestedWords_mem (mem_words_of_sum he.wordSum he.words he.coeff hp)
    refine ⟨h1.le, fun x hx => ?_⟩
    cases hxh : x.isH with
    | true => rcases (h3 x hx).1 hxh with rfl | rfl <;> simp [OpName.bodies]
    | false => exact hk _ ((h3 x hx).2 hxh)
  obtain ⟨rows, rfl, hrows⟩ := hl.rows
  obtain ⟨rows', rfl, hrows'⟩ := hl'.rows
  have hp := forall₂_perm_flatten hrows hrows' (expansion_perm he he') (by
    rintro p hp r r' ⟨terms, ht, hr⟩ ⟨terms', ht', hr'⟩
    obtain rfl : terms = terms' := by rw [ht] at ht'; injection ht'
    obtain ⟨w1, w2⟩ := hwords he p hp
    obtain ⟨g1, g2, -⟩ := nestedFactors_good w1 ht
    exact ContractRun.determined hm hcanon hord hord' g1 (fun t hm => (nestedFactors_writable w2 ht t hm).distinct) g2 hr hr')
  have hall : ∀ t ∈ rows.flatten, GoodTerm t ∧ Distinct t := by
    intro t ht
    obtain ⟨row, hrow, ht⟩ := List.mem_flatten.1 ht
    obtain ⟨p, hp, terms, hf, hr⟩ := forall₂_mem_right hrows hrow
    obtain ⟨w1, w2⟩ := hwords he p hp
    obtain ⟨g1, g2, -⟩ := nestedFactors_good w1 hf
    have hne : terms ≠ [] := by
      rintro rfl
      exact hr
    exact ⟨((ContractRun.fine hcanon hord hcpu hn hne (fun t hm => (nestedFactors_writable w2 hf t hm).nice) g2 _).2.2 row hr t ht).1,
      ContractRun.distinct hcanon hord g1 (fun t hm => (nestedFactors_writable w2 hf t hm).distinct.2) g2 hr t ht⟩
  obtain ⟨o1, o2, e1, e2, e3⟩ := C50_order .spinOrbital _ _ (regular_of_good fun t ht => (hall t ht).1) hp
  rw [hc] at e1
  rw [hc'] at e2
  injection e1 with e1
  injection e2 with e2
  subst e1 e2
  exact list_made_eq (fun t ht => (distinct_combine (fun t ht => (hall t ht).2) hc t ht).1)
    (fun t ht => (distinct_combine (fun t ht => (hall t (hp.mem_iff.2 ht)).2) hc' t ht).1) e3.symm

/-- The other order of every set. -/
def SetOrder.reversed (ord : SetOrder) : SetOrder := ⟨fun s => (ord.indices s).reverse, fun s => (ord.spaces s).reverse⟩

theorem SetOrder.reversed_lawful {ord : SetOrder} (h : ord.Lawful) : ord.reversed.Lawful :=
  ⟨fun s => List.nodup_reverse.2 (h.indices_nodup s), fun s i => by simp [SetOrder.reversed, h.mem_indices],
    fun s => List.nodup_reverse.2 (h.spaces_nodup s), fun s i => by simp [SetOrder.reversed, h.mem_spaces]⟩

/-- The hypotheses of C105 can be met: two levels, with one and two processes, on machines with four and two processors that iterate over sets in
opposite orders. -/
theorem C105_example : ∃ (m : Machine) (o : Options) (calls calls' : List (List (Term × Term))) (outs outs' : List (List Term))
    (expansion : List (ℤ × List OpName)) (calls₂ calls₂' : List (List Term × ℚ)) (out out' : List Term),
    m.canon = exMachine.canon ∧ m.ord ≠ exMachine.ord ∧ m.ord.Lawful ∧ CanonContract exMachine.canon ∧ exMachine.ord.Lawful ∧ o.nProcess = 1 ∧ m.cpus = 2 ∧ exMachine.cpus = 4 ∧
    BchRun exMachine o [1, 2] true false [(2, 0, 6), (2, 0, 6)] calls outs ∧
    BchRun m { o with nProcess := 2 } [1, 2] true false [(2, 0, 6), (2, 0, 6)] calls' outs' ∧ outs' = outs ∧
    NestedRun exMachine o 2 [1, 2] true false expansion calls₂ out ∧
    NestedRun m { o with nProcess := 2 } 2 [1, 2] true false expansion calls₂' out' ∧ out' = out := by
  obtain ⟨c, l, p⟩ := exMachine_ok
  let o : Options := ⟨2, 6, 0, false, true, 1, true⟩
  let m : Machine := ⟨exMachine.canon, exMachine.ord.reversed, 2⟩
  have l' : m.ord.Lawful := SetOrder.reversed_lawful l
  have hne : m.ord ≠ exMachine.ord := by
    intro e
    have := congrArg (fun o : SetOrder => o.spaces {⟨.c, false⟩, ⟨.v, false⟩}) e
    revert this
    decide
  obtain ⟨-, calls, outs, h1⟩ := C76_bch_cc_rsc _ c l p o (by decide) [1, 2] (by simp) (by simp) true false [(2, 0, 6), (2, 0, 6)]
  obtain ⟨-, calls', outs', h1'⟩ := C76_bch_cc_rsc m c l' (by decide) { o with nProcess := 2 } (by decide) [1, 2] (by simp)
    (by simp) true false [(2, 0, 6), (2, 0, 6)]
  obtain ⟨-, ⟨e, he⟩, hn⟩ := C76_nested_commutator_cc _ c l p o (by decide) 2 [1, 2] (by simp) true false
  obtain ⟨calls₂, out, h2⟩ := hn e he
  obtain ⟨-, -, hn'⟩ := C76_nested_commutator_cc m c l' (by decide) { o with nProcess := 2 } (by decide) 2 [1, 2] (by simp)
    true false
  obtain ⟨calls₂', out', h2'⟩ := hn' e he
  exact ⟨m, o, calls, calls', outs, outs', e, calls₂, calls₂', out, out', rfl, hne, l', c, l, rfl, rfl, rfl, h1, h1',
    (C105_bch_cc_rsc exMachine m rfl c l l' o _ (by simp) _ _ _ 2 _ _ _ _ h1 h1').2, h2, h2',
    C105_nested_commutator_cc exMachine m rfl c l l' p o (by decide) _ _ (by simp) _ _ 2 _ _ _ _ _ _ h2 h2'⟩

end Dsrg
