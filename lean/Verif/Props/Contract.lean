import Verif.Lemmas.Runs

/-!
C32-C34: what the general and the connected mode return.
-/

namespace Dsrg

theorem contractionWord_eq {ops : List SqOp} {t : Tensor} (h : ProperTensor ops t) : contractionWord t = tensorLegs t := by
  unfold contractionWord tensorLegs
  rcases h.cls with hc | hc
  · simp [hc, creLegs, annLegs]
  · have hu := h.hole hc
    have hl := h.size ▸ hu
    simp only [hc, if_true, creLegs, annLegs]
    rw [List.take_of_length_le (by omega), List.take_of_length_le (by omega)]

theorem flatMap_contractionWord {ops : List SqOp} {ts : List Tensor} (h : ∀ t ∈ ts, ProperTensor ops t) :
    ts.flatMap contractionWord = ts.flatMap tensorLegs := List.flatMap_congr fun t ht => contractionWord_eq (h t ht)

theorem isResult_of_proper {ops : List SqOp} (h : GoodOps ops) {ts : List Tensor} (hts : ProperSet ops ts) :
    IsResult ops ts (relSign (baseOrder ops) (arranged ops ts)) (openOp ops ts) := by
  have hw := flatMap_contractionWord hts.proper
  have hp := perm_current h hts
  refine ⟨?_, rfl, rfl, sorted_openLabels _ _ _, sorted_openLabels _ _ _, signPow_eq _, ?_⟩
  · rw [hw]; exact hp
  · intro M _ F hF
    rw [hw]
    exact hF.relSign h.nodup_base hp.symm

theorem expandHole_pair (t : Tensor) : ∀ t' ∈ t.expandHole, t'.pair = t.pair := by
  intro t' ht'
  unfold Tensor.expandHole at ht'
  split at ht' <;> simp only [List.mem_cons, List.not_mem_nil, or_false] at ht'
  · subst ht'; rfl
  · rcases ht' with rfl | rfl <;> rfl

theorem expandHoleDensities_labels (ts : List Tensor) : ∀ r ∈ expandHoleDensities ts, (r.1 = 1 ∨ r.1 = -1) ∧
    (r.2.map Tensor.pair).Perm (ts.map Tensor.pair) := by
  intro r hr
  unfold expandHoleDensities at hr
  simp only at hr
  split at hr
  · simp only [List.mem_cons, List.not_mem_nil, or_false] at hr
    subst hr; exact ⟨Or.inl rfl, List.Perm.refl _⟩
  · rw [List.mem_map] at hr
    obtain ⟨l, hl, rfl⟩ := hr
    refine ⟨signPow_eq _, ?_⟩
    rw [mem_pyProduct] at hl
    simp only [splitHoles] at hl ⊢
    have hl' : l.map Tensor.pair = (ts.filter fun t => decide (t.cls = .hole)).map Tensor.pair := by
      revert hl
      generalize (ts.filter fun t => decide (t.cls = .hole)) = hs
      intro hl
      induction hs generalizing l with
      | nil => simp only [List.map_nil, List.forall₂_nil_right_iff] at hl; subst hl; rfl
      | cons t hs ih =>
        rw [List.map_cons, List.forall₂_cons_right_iff] at hl
        obtain ⟨a, l', h1, h2, rfl⟩ := hl
        rw [List.map_cons, List.map_cons, ih _ h2, expandHole_pair t a h1]
    rw [List.map_append, hl', ← List.map_append]
    refine List.Perm.map _ ?_
    have := List.filter_append_perm (fun t : Tensor => decide (t.cls ≠ .hole)) ts
    simpa using this

theorem perm_marked {ops : List SqOp} {ts : List Tensor} (h : ∀ t ∈ ts, ProperTensor ops t) :
    (ts.flatMap tensorLegs).Perm ((ts.map Tensor.pair).flatMap marked) := by
  induction ts with
  | nil => exact List.Perm.refl _
  | cons t ts ih =>
    simp only [List.flatMap_cons, List.map_cons]
    exact (h t (by simp)).perm_legs.append (ih fun t ht => h t (List.mem_cons_of_mem _ ht))

/-! ### C32 -/

/-- C32: for at most three strings (or when all elementary contractions involve one common string, as in coupled-cluster
commutators), the connected mode returns the results for exactly those contractions of the general mode that connect all
strings and contain a pair contraction, with the same sign and operator.  Both modes treat no contraction twice. -/
theorem C32_connected_part (ops : List SqOp) (h : GoodOps ops) (maxCu maxOpen minOpen : Int) (expand parG parC : Bool)
    (hops : ops.length ≤ 3 ∨ ∃ k, ∀ t, Elementary ops maxCu t → Involves ops k t)
    (batchesG batchesC : List (List (Int × List Tensor × SqOp))) (hG : GeneralRun ops maxCu maxOpen minOpen expand parG batchesG)
    (hC : ConnectedRun ops maxCu maxOpen minOpen expand parC batchesC) :
    ∃ (csG csC : List (List Tensor)) (value : List Tensor → Int × SqOp),
      (∀ c ∈ csG ++ csC, IsResult ops c (value c).1 (value c).2) ∧
      batchesG.flatten.Perm (csG.flatMap fun c => (if expand then expandHoleDensities c else [(1, c)]).map fun r =>
        ((value c).1 * r.1, r.2, (value c).2)) ∧
      batchesC.flatten.Perm (csC.flatMap fun c => (if expand then expandHoleDensities c else [(1, c)]).map fun r =>
        ((value c).1 * r.1, r.2, (value c).2)) ∧
      csG.Pairwise (fun a b => ¬ a.Perm b) ∧ csC.Pairwise (fun a b => ¬ a.Perm b) ∧
      (∀ ts, (∃ c ∈ csG, c.Perm ts) ↔ Allowed ops maxCu maxOpen minOpen ts) ∧
      ∀ ts, (∃ c ∈ csC, c.Perm ts) ↔ (∃ c ∈ csG, c.Perm ts) ∧ ConnectsAll ops ts ∧ HasPair ts := by
  obtain ⟨csG, g1, g2, g3⟩ := general_spec h hG
  obtain ⟨csC, c1, c2, c3, c4⟩ := connected_spec h hC
  refine ⟨csG, csC, fun c => (relSign (baseOrder ops) (arranged ops c), openOp ops c), ?_, ?_, c4, g1, c1, g2, ?_⟩
  · intro c hc
    refine isResult_of_proper h ?_
    rcases List.mem_append.1 hc with hc | hc
    · exact ((g2 c).1 ⟨c, hc, List.Perm.refl _⟩).proper h
    · exact (c2 c ⟨c, hc, List.Perm.refl _⟩).1.proper h
  · rw [List.flatMap_def]; exact g3.flatten
  · intro ts
    rw [g2]
    exact ⟨c2 ts, c3 hops ts⟩

theorem involves_both {ops : List SqOp} (h : GoodOps ops) (h2 : ops.length = 2) {maxCu : Int} {t : Tensor} (ht : Elementary ops maxCu t) :
    ∀ k < 2, Involves ops k t := by
  have hp := proper_of_elementary h ht
  obtain ⟨a, ha, b, hb, hab⟩ := two_owners h ht
  have la := (mem_ownersOf h hp).1 ha
  have lb := (mem_ownersOf h hp).1 hb
  have h1 : a < 2 := by obtain ⟨_, h, _⟩ := la; have := lt_length_of_getElem? h; omega
  have h2 : b < 2 := by obtain ⟨_, h, _⟩ := lb; have := lt_length_of_getElem? h; omega
  intro k hk
  by_cases e : k = a
  · exact e ▸ la
  · have : k = b := by omega
    exact this ▸ lb

/-- C32 for two strings: the condition on connectivity is void, the contractions dropped by the connected mode are the
uncontracted product and those made of higher cumulants only. -/
theorem C32_two_operators (ops : List SqOp) (h : GoodOps ops) (h2 : ops.length = 2) (maxCu maxOpen minOpen : Int) (ts : List Tensor)
    (hA : Allowed ops maxCu maxOpen minOpen ts) :
    ((ConnectsAll ops ts ∧ HasPair ts) ↔ HasPair ts) ∧
    (¬ HasPair ts ↔ ∀ t ∈ ts, CumulantContraction ops (checkMaxCu ops maxCu).toNat (ownersOf ops t) t) := by
  constructor
  · refine ⟨fun h => h.2, fun hp => ⟨?_, hp⟩⟩
    obtain ⟨t, ht, _⟩ := hp
    intro S ⟨a, ha, haS⟩ ⟨b, hb, hbS⟩
    rw [h2] at ha hb
    exact ⟨t, ht, ⟨a, haS, involves_both h h2 (hA.elementary t ht) a ha⟩, b, hbS, involves_both h h2 (hA.elementary t ht) b hb⟩
  · constructor
    · intro hn t ht
      obtain ⟨key, hk⟩ := hA.elementary t ht
      have hkey := key_eq h hk
      rcases hk with ⟨i, j, left, right, hij, hi, hj, ⟨u, hu, l, hl, _, rfl, rfl⟩ | ⟨l, hl, u, hu, _, rfl, rfl⟩⟩ | hk
      · exact absurd ⟨_, ht, rfl⟩ hn
      · exact absurd ⟨_, ht, rfl⟩ hn
      · rw [← hkey]; exact hk
    · rintro hall ⟨t, ht, h1⟩
      obtain ⟨cre, ann, _, _, hlen, hl2, _, _, _, rfl⟩ := hall t ht
      simp only [density, Tensor.upper, Indices.size, List.length_map] at h1
      omega

/-! ### C33 -/

/-- C33: the assembly returns the sign of the rearrangement into pairs and remaining string; iterating the set of
contractions in another order gives the same sign and operator, with the densities in that order. -/
theorem C33_sign (ops : List SqOp) (h : GoodOps ops) (maxCu : Int) (ele : List Tensor) (con con' : List Nat) (hperm : con.Perm con')
    (ts : List Tensor) (hts : con.map (ele[·]?) = ts.map some) (hel : ∀ t ∈ ts, Elementary ops maxCu t)
    (hsh : ts.Pairwise ShareNothing) :
    ∃ sign op ts', IsResult ops ts sign op ∧ IsResult ops ts' sign op ∧ ts'.Perm ts ∧ con'.map (ele[·]?) = ts'.map some ∧
      processComposite ops ele con false = .ok [(sign, ts, op)] ∧
      processComposite ops ele con' false = .ok [(sign, ts', op)] ∧
      processComposite ops ele con true = .ok ((expandHoleDensities ts).map fun r => (sign * r.1, r.2, op)) ∧
      processComposite ops ele con' true = .ok ((expandHoleDensities ts').map fun r => (sign * r.1, r.2, op)) := by
  have hlt : ∀ i ∈ con, i < ele.length := by
    intro i hi
    have : ele[i]? ∈ con.map (ele[·]?) := List.mem_map.2 ⟨i, hi, rfl⟩
    rw [hts, List.mem_map] at this
    obtain ⟨t, _, ht⟩ := this
    exact lt_length_of_getElem? ht.symm
  have hpick : ∀ c : List Nat, (∀ i ∈ c, i < ele.length) → c.map (ele[·]?) = (c.map (pick ele)).map some := by
    intro c hc
    rw [List.map_map]
    apply List.map_congr_left
    intro i hi
    simp only [Function.comp]
    rw [List.getElem?_eq_getElem (hc i hi), pick_eq (List.getElem?_eq_getElem (hc i hi))]
  obtain rfl : ts = con.map (pick ele) := by
    rw [hpick con hlt] at hts
    exact (List.map_injective_iff.2 (Option.some_injective _) hts).symm
  have hlt' : ∀ i ∈ con', i < ele.length := fun i hi => hlt i (hperm.mem_iff.2 hi)
  have hps : ProperSet ops (con.map (pick ele)) := ⟨fun t ht => proper_of_elementary h (hel t ht), hsh⟩
  have hp' : (con.map (pick ele)).Perm (con'.map (pick ele)) := hperm.map _
  have hps' := hps.perm hp'
  have hproc : ∀ c : List Nat, (∀ i ∈ c, i < ele.length) → ProperSet ops (c.map (pick ele)) → ∀ expand,
      processComposite ops ele c expand = .ok (resultRows ops expand (c.map (pick ele))) := by
    intro c hc hpc expand
    unfold processComposite
    rw [mapM_listGet hc]
    exact assemble_ok h hpc expand
  refine ⟨relSign (baseOrder ops) (arranged ops (con.map (pick ele))), openOp ops (con.map (pick ele)), con'.map (pick ele),
    isResult_of_proper h hps, ?_, hp'.symm, hpick con' hlt', ?_, ?_, ?_, ?_⟩
  · rw [← sign_congr h hps hp', openOp_congr hp']
    exact isResult_of_proper h hps'
  · rw [hproc con hlt hps]; simp [resultRows]
  · rw [hproc con' hlt' hps', ← sign_congr h hps hp', openOp_congr hp']; simp [resultRows]
  · rw [hproc con hlt hps]; rfl
  · rw [hproc con' hlt' hps', ← sign_congr h hps hp', openOp_congr hp']; rfl

/-! ### C34 -/

/-- C34 for one result `(sign, densities, operator)`. -/
structure Conserves (ops : List SqOp) (maxOpen minOpen : Int) (r : Int × List Tensor × SqOp) : Prop where
  unit : r.1 = 1 ∨ r.1 = -1
  labels : ((r.2.1.map Tensor.pair).flatMap marked ++ marked r.2.2).Perm (productWord ops)
  upperSorted : r.2.2.upper.list.Pairwise (· ≤ ·)
  lowerSorted : r.2.2.lower.list.Pairwise (· ≤ ·)
  window : minOpen ≤ ((r.2.2.upper.size + r.2.2.lower.size : Nat) : Int) ∧
    ((r.2.2.upper.size + r.2.2.lower.size : Nat) : Int) ≤ maxOpen

theorem conserves {ops : List SqOp} (h : GoodOps ops) {maxCu maxOpen minOpen : Int} {ts : List Tensor}
    (hA : Allowed ops maxCu maxOpen minOpen ts) (expand : Bool) : ∀ r ∈ resultRows ops expand ts, Conserves ops maxOpen minOpen r := by
  intro r hr
  have hps := hA.proper h
  have hrow : ∃ s, (s = 1 ∨ s = -1) ∧ r.1 = relSign (baseOrder ops) (arranged ops ts) * s ∧
      (r.2.1.map Tensor.pair).Perm (ts.map Tensor.pair) ∧ r.2.2 = openOp ops ts := by
    unfold resultRows at hr
    rw [List.mem_map] at hr
    obtain ⟨q, hq, rfl⟩ := hr
    cases expand with
    | true =>
      simp only [if_true] at hq
      obtain ⟨h1, h2⟩ := expandHoleDensities_labels ts q hq
      exact ⟨q.1, h1, rfl, h2, rfl⟩
    | false =>
      simp only [Bool.false_eq_true, if_false, List.mem_cons, List.not_mem_nil, or_false] at hq
      subst hq
      exact ⟨1, Or.inl rfl, rfl, List.Perm.refl _, rfl⟩
  obtain ⟨s, hs, h1, h2, h3⟩ := hrow
  have hp := perm_current h hps
  refine ⟨?_, ?_, ?_, ?_, ?_⟩
  · rw [h1]
    rcases (isResult_of_proper h hps).unit with e | e <;> rcases hs with rfl | rfl <;> rw [e] <;> simp
  · rw [h3]
    refine (List.Perm.append (h2.flatMap_right marked) (List.Perm.refl _)).trans ?_
    refine List.Perm.trans ?_ hp
    exact List.Perm.append (perm_marked hps.proper).symm (legs_perm _ _).symm
  · rw [h3]; exact sorted_openLabels _ _ _
  · rw [h3]; exact sorted_openLabels _ _ _
  · have hlen := hp.length_eq
    rw [List.length_append, ProperSet.length_legs hps.proper, length_baseOrder] at hlen
    have : (opLegs (openOp ops ts)).length = (openOp ops ts).upper.size + (openOp ops ts).lower.size := by
      simp [opLegs, creLegs, annLegs, Indices.size]
    rw [this] at hlen
    have := hA.window
    rw [h3]
    omega

/-- C34, general mode: in every result each operator of the product occurs exactly once, in one density or in the
remaining string, which is sorted and whose size lies in the window. -/
theorem C34_general (ops : List SqOp) (h : GoodOps ops) (maxCu maxOpen minOpen : Int) (expand par : Bool)
    (batches : List (List (Int × List Tensor × SqOp))) (hr : GeneralRun ops maxCu maxOpen minOpen expand par batches) :
    ∀ r ∈ batches.flatten, Conserves ops maxOpen minOpen r := by
  obtain ⟨cs, _, h2, h3⟩ := general_spec h hr
  intro r hr
  have := (h3.flatten).mem_iff.1 hr
  rw [← List.flatMap_def, List.mem_flatMap] at this
  obtain ⟨c, hc, hrc⟩ := this
  exact conserves h ((h2 c).1 ⟨c, hc, List.Perm.refl _⟩) expand r hrc

/-- C34, connected mode. -/
theorem C34_connected (ops : List SqOp) (h : GoodOps ops) (maxCu maxOpen minOpen : Int) (expand par : Bool)
    (batches : List (List (Int × List Tensor × SqOp))) (hr : ConnectedRun ops maxCu maxOpen minOpen expand par batches) :
    ∀ r ∈ batches.flatten, Conserves ops maxOpen minOpen r := by
  obtain ⟨cs, _, h2, _, h3⟩ := connected_spec h hr
  intro r hr
  have := h3.mem_iff.1 hr
  rw [List.mem_flatMap] at this
  obtain ⟨c, hc, hrc⟩ := this
  exact conserves h (h2 c ⟨c, hc, List.Perm.refl _⟩).1 expand r hrc

theorem exists_pop : ∃ pop : Finset Nat → Nat, ∀ s : Finset Nat, s.Nonempty → pop s ∈ s := by
  refine ⟨fun s => if h : s.Nonempty then s.min' h else 0, fun s h => ?_⟩
  simp only [h, dif_pos]
  exact Finset.min'_mem s h

/-- The general mode raises no exception and terminates on every product of strings with different labels. -/
theorem C34_general_total (ops : List SqOp) (h : GoodOps ops) (maxCu maxOpen minOpen : Int) (expand par : Bool) :
    ∃ batches, GeneralRun ops maxCu maxOpen minOpen expand par batches := by
  obtain ⟨ele, hele, hnd, hmem⟩ := elementaryList_spec h maxCu
  obtain ⟨rows, hrows, hcompat⟩ := C27_compatible_list .spinOrbital ele
    fun t ht => (proper_of_elementary h ((hmem t).1 ht)).ty
  obtain ⟨pop, hpop⟩ := exists_pop
  obtain ⟨out, a', c', d, hrun⟩ := C28_general_backtrack_terminates ⟨compatOf rows, fun i => 2 * ((ele[i]?.map fun t => t.upper.size).getD 0),
    (baseOrderMap ops).length - maxOpen, (baseOrderMap ops).length - minOpen⟩ pop hpop (Finset.range ele.length) ∅ 0
  have hsym : ∀ i j, compatOf rows i j = compatOf rows j i := by
    intro i j
    unfold compatOf
    congr 1
    rw [hcompat, hcompat, eq_iff_iff]
    constructor
    · rintro ⟨h1, a, b, h2, h3, h4⟩; exact ⟨h1.symm, b, a, h3, h2, h4.symm⟩
    · rintro ⟨h1, a, b, h2, h3, h4⟩; exact ⟨h1.symm, b, a, h3, h2, h4.symm⟩
  obtain ⟨_, _, hon, hout⟩ := C28_general_backtrack _ hsym _ _ _ _ _ hrun
  have hproc : (out.map Finset.toList).mapM (fun con => processComposite ops ele con expand) =
      .ok ((out.map Finset.toList).map fun con => resultRows ops expand (con.map (pick ele))) := by
    refine mapM_except_ok _ _ _ ?_
    intro con hcon
    rw [List.mem_map] at hcon
    obtain ⟨s, hs, rfl⟩ := hcon
    obtain ⟨_, h2, h3, _, _⟩ := (hout s).1 hs
    have hlt : ∀ i ∈ s.toList, i < ele.length := fun i hi => by simpa using h2 (Finset.mem_toList.1 hi)
    unfold processComposite
    rw [mapM_listGet hlt]
    refine assemble_ok h ⟨?_, ?_⟩ expand
    · intro t ht
      rw [List.mem_map] at ht
      obtain ⟨i, hi, rfl⟩ := ht
      exact proper_of_elementary h ((hmem _).1 (pick_mem (hlt i hi)))
    · rw [List.pairwise_map]
      refine List.Pairwise.imp_of_mem ?_ s.nodup_toList
      intro i j hi hj hij
      have := h3 i (Finset.mem_toList.1 hi) j (Finset.mem_toList.1 hj) hij
      simp only [compatOf, decide_eq_true_eq, hcompat] at this
      obtain ⟨_, a, b, ha, hb, hs⟩ := this
      rw [pick_eq ha, pick_eq hb]; exact hs
  have hord : List.Forall₂ (fun (l : List Nat) s => l.Nodup ∧ l.toFinset = s) (out.map Finset.toList) out := by
    rw [List.forall₂_map_left_iff, List.forall₂_same]
    intro s _
    exact ⟨s.nodup_toList, by simp⟩
  by_cases hw : minOpen ≤ ((baseOrderMap ops).length : Int) ∧ ((baseOrderMap ops).length : Int) ≤ maxOpen
  · refine ⟨[resultRows ops expand []] ++ ((out.map Finset.toList).map fun con => resultRows ops expand (con.map (pick ele))), ele, rows,
      [resultRows ops expand []], out, a', c', d, _, _, hele, hrows, ?_, hrun, hord, hproc, ?_⟩
    · rw [if_pos hw]; exact ⟨_, uncontracted_ok h expand, rfl⟩
    · cases par
      · rfl
      · simp only [if_true]; exact ⟨_, List.Perm.refl _, rfl⟩
  · refine ⟨[] ++ ((out.map Finset.toList).map fun con => resultRows ops expand (con.map (pick ele))), ele, rows,
      [], out, a', c', d, _, _, hele, hrows, ?_, hrun, hord, hproc, ?_⟩
    · rw [if_neg hw]
    · cases par
      · rfl
      · simp only [if_true]; exact ⟨_, List.Perm.refl _, rfl⟩

/-- The connected mode raises no exception and terminates on every product of strings with different labels. -/
theorem C34_connected_total (ops : List SqOp) (h : GoodOps ops) (maxCu maxOpen minOpen : Int) (expand par : Bool) :
    ∃ batches, ConnectedRun ops maxCu maxOpen minOpen expand par batches := by
  obtain ⟨d, hd, hx⟩ := coded h maxCu
  by_cases h0 : d.length = 0
  · exact ⟨[], d, hd, by rw [if_pos h0]⟩
  obtain ⟨rows, hrows, _, hcompat⟩ := C27_compatible_categorized .spinOrbital ⟨d, sortCategories (d.map Prod.fst)⟩ hx.nodupCats
    (fun c hc t ht => (proper_of_elementary h (hx.getMem c hc t ht)).ty)
    (fun c hc t ht => (proper_of_elementary h (hx.getMem c hc t ht)).ne)
  obtain ⟨hc, hsym⟩ := compat_of_rows hx hcompat
  obtain ⟨pop, hpop⟩ := exists_pop
  have hbatch : ∀ l : List (List (List Nat)), (∀ comCat ∈ l, ∀ c ∈ comCat, c ∈ sortCategories (d.map Prod.fst)) →
      ∃ rest, List.Forall₂ (fun comCat batch => CategorizedBatch ops ⟨d, sortCategories (d.map Prod.fst)⟩ rows comCat expand batch)
        l rest := by
    intro l
    induction l with
    | nil => intro _; exact ⟨[], List.Forall₂.nil⟩
    | cons comCat l ih =>
      intro hl
      obtain ⟨rest, hrest⟩ := ih fun c hc => hl c (List.mem_cons_of_mem _ hc)
      have hav := hl comCat (by simp)
      obtain ⟨out, target', hrun⟩ := C29_terminates (⟨d, sortCategories (d.map Prod.fst)⟩ : EleCon Tensor) hx.nodupCats (compatOf rows)
        (counterKeys comCat) (fun c hcm => hav c (mem_counterKeys.1 hcm)) (fun c => (comCat.count c : Int)) pop hpop
      exact ⟨_, List.Forall₂.cons ⟨out, target', _, hrun, (categorized_ok h hx hc hsym hav hrun expand).2, rfl⟩ hrest⟩
  obtain ⟨rest, hrest⟩ := hbatch (macroSearch ((baseOrderMap ops).length - maxOpen) ((baseOrderMap ops).length - minOpen)
    (sortCategories (d.map Prod.fst)) (ops.map fun op => op.upper.size) (ops.map fun op => op.lower.size)) (by
      intro comCat hcc c hcm
      by_cases hops : ops = []
      · subst hops
        exfalso
        obtain ⟨e0, he0⟩ : ∃ e, e ∈ d := List.exists_mem_of_ne_nil _ fun e => h0 (by rw [e]; rfl)
        have hm : e0.1 ∈ sortCategories (d.map Prod.fst) := (C31_sequence (d.map Prod.fst)).1.mem_iff.2 (List.mem_map.2 ⟨e0, he0, rfl⟩)
        obtain ⟨t, ht, _⟩ := (hx.cats _).1 hm
        obtain ⟨i, hi⟩ := List.exists_mem_of_ne_nil _ (proper_of_elementary h ht).ne
        have := (proper_of_elementary h ht).upperSub i hi
        simp at this
      · refine ((C30_sound _ _ _ _ _ hx.nodupCats ?_ ?_).1 comCat hcc).available c hcm
        · intro c hcm
          obtain ⟨t, ht, rfl⟩ := (hx.cats c).1 hcm
          have hp := proper_of_elementary h ht
          refine ⟨⟨_, length_ownersOf hp⟩, ?_, ?_⟩
          · obtain ⟨k, hk, _⟩ := two_owners h ht
            exact List.ne_nil_of_mem hk
          · intro k hk
            obtain ⟨op, hop, _⟩ := (mem_ownersOf h hp).1 hk
            rw [List.length_map]; exact lt_length_of_getElem? hop
        · simpa using hops)
  refine ⟨rest, d, hd, ?_⟩
  rw [if_neg h0]
  exact ⟨rows, rest, hrows, hrest, by cases par <;> simp⟩

/-- Two two-body strings with two creation and annihilation labels each. -/
example : GoodOps [exOp, exOp'] ∧ (∃ batches, GeneralRun [exOp, exOp'] 3 6 0 true false batches) ∧
    ∃ batches, ConnectedRun [exOp, exOp'] 3 6 0 true true batches := by
  have h : GoodOps [exOp, exOp'] := by decide +kernel
  exact ⟨h, C34_general_total _ h _ _ _ _ _, C34_connected_total _ h _ _ _ _ _⟩

/-- The sign and the
operator of one composite contraction: a density and a hole density. -/
example : processComposite [exOp, exOp'] [density .cumulant [⟨⟨.g, false⟩, 0⟩] [⟨⟨.g, false⟩, 7⟩],
      density .hole [⟨⟨.p, false⟩, 4⟩] [⟨⟨.v, false⟩, 3⟩]] [1, 0] false =
    .ok [(-1, [density .hole [⟨⟨.p, false⟩, 4⟩] [⟨⟨.v, false⟩, 3⟩], density .cumulant [⟨⟨.g, false⟩, 0⟩] [⟨⟨.g, false⟩, 7⟩]],
      ⟨⟨.spinOrbital, [⟨⟨.g, false⟩, 5⟩, ⟨⟨.a, false⟩, 1⟩]⟩, ⟨.spinOrbital, [⟨⟨.h, false⟩, 2⟩, ⟨⟨.c, false⟩, 6⟩]⟩⟩)] := by
  decide +kernel

end Dsrg
