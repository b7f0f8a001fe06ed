import Verif.Lemmas.Enumerate

/-!
The runs of the general and the connected mode.
-/

namespace Dsrg

theorem length_baseOrder (ops : List SqOp) : (baseOrder ops).length = nOperators ops := by
  induction ops with
  | nil => rfl
  | cons op ops ih =>
    unfold baseOrder at ih ⊢
    rw [List.flatMap_cons, List.length_append, ih]
    simp [nOperators, opLegs, creLegs, annLegs, Indices.size]

theorem Allowed.proper {ops : List SqOp} (h : GoodOps ops) {maxCu maxOpen minOpen : Int} {ts : List Tensor}
    (ht : Allowed ops maxCu maxOpen minOpen ts) : ProperSet ops ts :=
  ⟨fun t hx => proper_of_elementary h (ht.elementary t hx), ht.share⟩

/-- The results for one composite contraction: the sign is that of rearranging the product into the contracted operators
followed by the remaining ones, times the sign of the hole expansion. -/
def resultRows (ops : List SqOp) (expand : Bool) (ts : List Tensor) : List (Int × List Tensor × SqOp) :=
  (if expand then expandHoleDensities ts else [(1, ts)]).map fun r =>
    (relSign (baseOrder ops) (arranged ops ts) * r.1, r.2, openOp ops ts)

theorem uncontracted_ok {ops : List SqOp} (h : GoodOps ops) (expand : Bool) : uncontracted ops = .ok (resultRows ops expand []) := by
  unfold uncontracted
  have hp : (arranged ops []).Perm (baseOrder ops) := perm_current h ⟨by simp, List.Pairwise.nil⟩
  have e : opLegs ⟨⟨.spinOrbital, openLabels true (baseOrder ops) []⟩, ⟨.spinOrbital, openLabels false (baseOrder ops) []⟩⟩ =
      arranged ops [] := rfl
  simp only [bind, Except.bind, h.make_open, pure, Except.pure, IndicesPair.make, ne_eq, not_true, if_false, e,
    (permutationSign_ok h hp).1, (permutationSign_ok h hp).2, resultRows]
  cases expand <;> simp [expandHoleDensities, splitHoles, openOp]

theorem mapM_listGet {flat : List Tensor} {con : List Nat} (h : ∀ i ∈ con, i < flat.length) :
    con.mapM (listGet flat) = .ok (con.map (pick flat)) := by
  refine mapM_except_ok _ _ _ ?_
  intro i hi
  unfold listGet
  rw [List.getElem?_eq_getElem (h i hi), pick_eq (List.getElem?_eq_getElem (h i hi))]

instance : Std.Symm ShareNothing := ⟨fun _ _ h => ShareNothing.symm h⟩

theorem pairwise_share_iff {ts : List Tensor} (hn : ts.Nodup) :
    ts.Pairwise ShareNothing ↔ ∀ a ∈ ts, ∀ b ∈ ts, a ≠ b → ShareNothing a b := by
  constructor
  · intro h a ha b hb hab
    exact List.Pairwise.forall h ha hb hab
  · intro h
    refine List.Pairwise.imp_of_mem ?_ hn
    intro a b ha hb hab
    exact h a ha b hb hab

theorem nodup_map_posIn {flat ts : List Tensor} (hts : ts.Nodup) (hmem : ∀ t ∈ ts, t ∈ flat) : (ts.map (posIn flat)).Nodup := by
  refine List.Nodup.map_on ?_ hts
  intro x hx y hy hxy
  rw [← pick_posIn (hmem x hx), ← pick_posIn (hmem y hy), hxy]

/-- Compatible numbers stand for contractions without common operators. -/
theorem compat_iff_share {flat ts : List Tensor} (hts : ts.Nodup) (hmem : ∀ t ∈ ts, t ∈ flat)
    (compat : Nat → Nat → Bool)
    (hc : ∀ i j, i ≠ j → i < flat.length → j < flat.length →
      (compat i j = true ↔ ShareNothing (pick flat i) (pick flat j))) :
    (∀ i ∈ (ts.map (posIn flat)).toFinset, ∀ j ∈ (ts.map (posIn flat)).toFinset, i ≠ j → compat i j = true) ↔
      ts.Pairwise ShareNothing := by
  rw [pairwise_share_iff hts]
  constructor
  · intro h a ha b hb hab
    have hne : posIn flat a ≠ posIn flat b := fun e => hab (by rw [← pick_posIn (hmem a ha), ← pick_posIn (hmem b hb), e])
    have := h (posIn flat a) (by simp; exact ⟨a, ha, rfl⟩) (posIn flat b) (by simp; exact ⟨b, hb, rfl⟩) hne
    rw [hc _ _ hne (posIn_lt (hmem a ha)) (posIn_lt (hmem b hb)), pick_posIn (hmem a ha), pick_posIn (hmem b hb)] at this
    exact this
  · intro h i hi j hj hij
    simp only [List.mem_toFinset, List.mem_map] at hi hj
    obtain ⟨a, ha, rfl⟩ := hi
    obtain ⟨b, hb, rfl⟩ := hj
    rw [hc _ _ hij (posIn_lt (hmem a ha)) (posIn_lt (hmem b hb)), pick_posIn (hmem a ha), pick_posIn (hmem b hb)]
    exact h a ha b hb fun e => hij (by rw [e])

theorem sum_sizes {flat ts : List Tensor} (hts : ts.Nodup) (hmem : ∀ t ∈ ts, t ∈ flat) :
    (∑ i ∈ (ts.map (posIn flat)).toFinset, 2 * ((flat[i]?.map fun t => t.upper.size).getD 0)) =
      2 * (ts.map fun t => t.upper.size).sum := by
  rw [List.sum_toFinset _ (nodup_map_posIn hts hmem), List.map_map, ← List.sum_map_mul_left]
  congr 1
  apply List.map_congr_left
  intro t ht
  have h1 := posIn_lt (hmem t ht)
  have h2 := pick_posIn (hmem t ht)
  simp only [Function.comp, List.getElem?_eq_getElem h1, Option.map_some, Option.getD_some]
  rw [pick_eq (List.getElem?_eq_getElem h1)] at h2
  rw [h2]

theorem forall₂_map_toFinset {orders : List (List Nat)} {out : List (Finset Nat)}
    (h : List.Forall₂ (fun (l : List Nat) s => l.Nodup ∧ l.toFinset = s) orders out) :
    orders.map List.toFinset = out ∧ ∀ l ∈ orders, l.Nodup := by
  induction h with
  | nil => simp
  | cons h1 _ ih => exact ⟨by simp [h1.2, ih.1], by simp [h1.1]; exact ih.2⟩

/-- What a run of the general mode returns: the results for all allowed contractions, each contraction once. -/
theorem general_spec {ops : List SqOp} (h : GoodOps ops) {maxCu maxOpen minOpen : Int} {expand par : Bool}
    {batches : List (List (Int × List Tensor × SqOp))} (hr : GeneralRun ops maxCu maxOpen minOpen expand par batches) :
    ∃ cs : List (List Tensor), cs.Pairwise (fun a b => ¬ a.Perm b) ∧
      (∀ ts, (∃ c ∈ cs, c.Perm ts) ↔ Allowed ops maxCu maxOpen minOpen ts) ∧
      batches.Perm (cs.map (resultRows ops expand)) := by
  obtain ⟨ele, rows, first, out, a', c', d, orders, rest, hele, hrows, hfirst, hrun, hord, hrest, hbat⟩ := hr
  obtain ⟨ele', hele', hnd, hmem⟩ := elementaryList_spec h maxCu
  obtain rfl : ele = ele' := by rw [hele] at hele'; exact Except.ok.inj hele'
  obtain ⟨rows', hrows', hcompat⟩ := C27_compatible_list .spinOrbital ele
    fun t ht => (proper_of_elementary h ((hmem t).1 ht)).ty
  obtain rfl : rows = rows' := by rw [hrows] at hrows'; exact Except.ok.inj hrows'
  have hc : ∀ i j, i ≠ j → i < ele.length → j < ele.length →
      (compatOf rows i j = true ↔ ShareNothing (pick ele i) (pick ele j)) := by
    intro i j hij hi hj
    unfold compatOf
    rw [decide_eq_true_iff, hcompat]
    constructor
    · rintro ⟨_, a, b, ha, hb, hs⟩
      rw [pick_eq ha, pick_eq hb]; exact hs
    · intro hs
      exact ⟨hij, _, _, List.getElem?_eq_getElem hi, List.getElem?_eq_getElem hj, by
        rw [pick_eq (List.getElem?_eq_getElem hi), pick_eq (List.getElem?_eq_getElem hj)] at hs; exact hs⟩
  have hsym : ∀ i j, compatOf rows i j = compatOf rows j i := by
    intro i j
    unfold compatOf
    congr 1
    rw [hcompat, hcompat, eq_iff_iff]
    constructor
    · rintro ⟨h1, a, b, h2, h3, h4⟩; exact ⟨h1.symm, b, a, h3, h2, h4.symm⟩
    · rintro ⟨h1, a, b, h2, h3, h4⟩; exact ⟨h1.symm, b, a, h3, h2, h4.symm⟩
  obtain ⟨_, _, hon, hout⟩ := C28_general_backtrack _ hsym _ _ _ _ _ hrun
  obtain ⟨hof, hofn⟩ := forall₂_map_toFinset hord
  have hlt : ∀ con ∈ orders, con.Nodup ∧ ∀ i ∈ con, i < ele.length := by
    intro con hcon
    refine ⟨hofn con hcon, ?_⟩
    intro i hi
    have : con.toFinset ∈ out := by rw [← hof]; exact List.mem_map.2 ⟨con, hcon, rfl⟩
    have := ((hout _).1 this).2.1 (List.mem_toFinset.2 hi)
    simpa using this
  obtain ⟨hs1, hs2⟩ := selections_spec hnd orders hlt (by rw [hof]; exact hon)
  have hall : ∀ ts, (∃ c ∈ orders.map fun con => con.map (pick ele), c.Perm ts) ↔
      Allowed ops maxCu maxOpen minOpen ts ∧ ts ≠ [] := by
    intro ts
    rw [hs2, hof]
    constructor
    · rintro ⟨h1, h2, h3⟩
      obtain ⟨h4, _, h6, h7, h8⟩ := (hout _).1 h3
      rw [compat_iff_share h1 h2 _ hc] at h6
      simp only at h7 h8
      rw [sum_sizes h1 h2, h.length_map, length_baseOrder] at h7 h8
      refine ⟨⟨h1, fun t ht => (hmem t).1 (h2 t ht), h6, ?_⟩, ?_⟩
      · push_cast at h7 h8 ⊢; omega
      · rintro rfl; simp at h4
    · rintro ⟨⟨h1, h2, h3, h4⟩, h5⟩
      have h2' : ∀ t ∈ ts, t ∈ ele := fun t ht => (hmem t).2 (h2 t ht)
      refine ⟨h1, h2', (hout _).2 ⟨?_, ?_, ?_, ?_⟩⟩
      · obtain ⟨t, ht⟩ := List.exists_mem_of_ne_nil _ h5
        exact ⟨posIn ele t, by simp; exact ⟨t, ht, rfl⟩⟩
      · intro i hi
        simp only [List.mem_toFinset, List.mem_map] at hi
        obtain ⟨t, ht, rfl⟩ := hi
        simpa using posIn_lt (h2' t ht)
      · exact (compat_iff_share h1 h2' _ hc).2 h3
      · simp only
        rw [sum_sizes h1 h2', h.length_map, length_baseOrder]
        push_cast at h4 ⊢; omega
  have hproc : orders.mapM (fun con => processComposite ops ele con expand) =
      .ok (orders.map fun con => resultRows ops expand (con.map (pick ele))) := by
    refine mapM_except_ok _ _ _ ?_
    intro con hcon
    have hal := ((hall (con.map (pick ele))).1 ⟨_, List.mem_map.2 ⟨con, hcon, rfl⟩, List.Perm.refl _⟩).1
    unfold processComposite
    rw [mapM_listGet (hlt con hcon).2]
    exact assemble_ok h (hal.proper h) expand
  rw [hrest] at hproc
  obtain rfl := Except.ok.inj hproc
  have hperm : batches.Perm (first ++ orders.map fun con => resultRows ops expand (con.map (pick ele))) := by
    cases par with
    | true => simp only [if_true] at hbat; obtain ⟨r, hr, rfl⟩ := hbat; exact List.Perm.append_left _ hr
    | false => simp only [Bool.false_eq_true, if_false] at hbat; rw [hbat]
  have hnil : ∀ ts ∈ orders.map fun con => con.map (pick ele), ts ≠ [] := by
    intro ts hts
    exact ((hall ts).1 ⟨ts, hts, List.Perm.refl _⟩).2
  have hnilA : Allowed ops maxCu maxOpen minOpen [] ↔
      (minOpen ≤ ((baseOrderMap ops).length : Int) ∧ ((baseOrderMap ops).length : Int) ≤ maxOpen) := by
    rw [h.length_map, length_baseOrder]
    constructor
    · intro hA; simpa using hA.window
    · intro hw; exact ⟨List.nodup_nil, by simp, List.Pairwise.nil, by simpa using hw⟩
  by_cases hw : minOpen ≤ ((baseOrderMap ops).length : Int) ∧ ((baseOrderMap ops).length : Int) ≤ maxOpen
  · rw [if_pos hw] at hfirst
    obtain ⟨r, hr, rfl⟩ := hfirst
    rw [uncontracted_ok h expand] at hr
    obtain rfl := Except.ok.inj hr
    refine ⟨[] :: orders.map fun con => con.map (pick ele), ?_, ?_, ?_⟩
    · refine List.Pairwise.cons ?_ hs1
      intro ts hts hp
      exact hnil ts hts (List.nil_perm.1 hp)
    · intro ts
      by_cases hts : ts = []
      · subst hts
        rw [hnilA]
        refine ⟨fun _ => hw, fun _ => ⟨[], by simp, List.Perm.refl _⟩⟩
      · have := hall ts
        simp only [List.mem_cons, exists_eq_or_imp, List.nil_perm, hts, false_or, ne_eq, not_false_eq_true, and_true] at this ⊢
        exact this
    · rw [List.map_cons, List.map_map]; exact hperm
  · rw [if_neg hw] at hfirst
    subst hfirst
    refine ⟨_, hs1, ?_, ?_⟩
    · intro ts
      rw [hall]
      refine ⟨fun h => h.1, fun hA => ⟨hA, ?_⟩⟩
      rintro rfl
      exact hw (hnilA.1 hA)
    · rw [List.map_map]; exact hperm

/-! ### The connected mode -/

theorem owner_lt {part : SqOp → List Index} {ops : List SqOp} {i : Index} (hi : i ∈ ops.flatMap part) :
    (ops.findIdx fun op => decide (i ∈ part op)) < ops.length := by
  rw [List.findIdx_lt_length]
  rw [List.mem_flatMap] at hi
  obtain ⟨op, h1, h2⟩ := hi
  exact ⟨op, h1, by simpa using h2⟩

theorem mem_ownersOf {ops : List SqOp} (h : GoodOps ops) {t : Tensor} (ht : ProperTensor ops t) {k : Nat} :
    k ∈ ownersOf ops t ↔ Involves ops k t := by
  unfold ownersOf
  rw [List.mem_append, List.mem_map, List.mem_map]
  have find : ∀ {part : SqOp → List Index} {i}, i ∈ ops.flatMap part → ∃ (k : Nat) (op : SqOp), ops[k]? = some op ∧ i ∈ part op := by
    intro part i hi
    rw [List.mem_flatMap] at hi
    obtain ⟨op, h1, h2⟩ := hi
    obtain ⟨k, hk⟩ := List.mem_iff_getElem?.1 h1
    exact ⟨k, op, hk, h2⟩
  constructor
  · rintro (⟨i, hi, rfl⟩ | ⟨i, hi, rfl⟩)
    · obtain ⟨k, op, h1, h2⟩ := find (ht.upperSub i hi)
      exact ⟨op, by rw [h.ownerU_eq h1 h2]; exact h1, Or.inl ⟨i, hi, h2⟩⟩
    · obtain ⟨k, op, h1, h2⟩ := find (ht.lowerSub i hi)
      exact ⟨op, by rw [h.ownerL_eq h1 h2]; exact h1, Or.inr ⟨i, hi, h2⟩⟩
  · rintro ⟨op, h1, ⟨i, hi, h2⟩ | ⟨i, hi, h2⟩⟩
    · exact Or.inl ⟨i, hi, h.ownerU_eq h1 h2⟩
    · exact Or.inr ⟨i, hi, h.ownerL_eq h1 h2⟩

theorem length_ownersOf {ops : List SqOp} {t : Tensor} (ht : ProperTensor ops t) : (ownersOf ops t).length = 2 * t.upper.size := by
  have := ht.size
  simp only [ownersOf, List.length_append, List.length_map, Indices.size]
  omega

theorem two_owners {ops : List SqOp} (h : GoodOps ops) {maxCu : Int} {t : Tensor} (ht : Elementary ops maxCu t) :
    ∃ k ∈ ownersOf ops t, ∃ k' ∈ ownersOf ops t, k ≠ k' := by
  obtain ⟨key, hk⟩ := ht
  rw [← key_eq h hk]
  rcases hk with ⟨i, j, left, right, hij, hi, hj, ⟨u, hu, l, hl, _, rfl, rfl⟩ | ⟨l, hl, u, hu, _, rfl, rfl⟩⟩ |
    ⟨cre, ann, hc, ha, hlen, h2, _, hne, rfl, rfl⟩
  · exact ⟨i, by simp, j, by simp, by omega⟩
  · exact ⟨j, by simp, i, by simp, by omega⟩
  · by_contra hcon
    push Not at hcon
    apply hne
    obtain ⟨c, cre', rfl⟩ := List.exists_cons_of_ne_nil (l := cre) (by rintro rfl; simp at h2)
    refine ⟨c.1, ?_⟩
    intro x hx
    refine hcon x.1 ?_ c.1 (by simp)
    rw [← List.map_append]
    exact List.mem_map.2 ⟨x, hx, rfl⟩

theorem ConnectedChoice.perm {lo hi : Int} {available : List (List Nat)} {cre ann : List Nat} {l l' : List (List Nat)}
    (h : ConnectedChoice lo hi available cre ann l) (hp : l.Perm l') : ConnectedChoice lo hi available cre ann l' where
  available c hc := h.available c (hp.mem_iff.2 hc)
  touches k hk := by obtain ⟨c, hc, h'⟩ := h.touches k hk; exact ⟨c, hp.mem_iff.1 hc, h'⟩
  connects S h1 h2 := by obtain ⟨c, hc, h'⟩ := h.connects S h1 h2; exact ⟨c, hp.mem_iff.1 hc, h'⟩
  pair := by obtain ⟨c, hc, h'⟩ := h.pair; exact ⟨c, hp.mem_iff.1 hc, h'⟩
  creOk k := by have := h.creOk k; unfold creUsed at this ⊢; rwa [← (hp.flatMap_right _).count_eq]
  annOk k := by have := h.annOk k; unfold annUsed at this ⊢; rwa [← (hp.flatMap_right _).count_eq]
  window := by rw [← (hp.map _).sum_eq]; exact h.window

theorem count_owner_le (part : SqOp → List Index) {ops : List SqOp} {l : List Index} (hl : l.Nodup)
    (hsub : ∀ i ∈ l, i ∈ ops.flatMap part) (k : Nat) :
    (l.map fun i => ops.findIdx fun op => decide (i ∈ part op)).count k ≤ (ops.map fun op => (part op).length).getD k 0 := by
  by_cases hk : k < ops.length
  · have hg : (ops.map fun op => (part op).length).getD k 0 = (part ops[k]).length := by
      simp [List.getD_eq_getElem?_getD, List.getElem?_eq_getElem hk]
    rw [hg, List.count_eq_countP, List.countP_map, List.countP_eq_length_filter]
    refine List.Subperm.length_le (List.subperm_of_subset (hl.filter _) ?_)
    intro i hi
    rw [List.mem_filter] at hi
    have h2 : (ops.findIdx fun op => decide (i ∈ part op)) = k := by simpa using hi.2
    have := List.findIdx_getElem (p := fun op => decide (i ∈ part op)) (xs := ops) (w := by rw [h2]; exact hk)
    simp only [h2, decide_eq_true_eq] at this
    exact this
  · rw [List.count_eq_zero.2]
    · omega
    · intro hm
      rw [List.mem_map] at hm
      obtain ⟨i, hi, rfl⟩ := hm
      exact hk (owner_lt (hsub i hi))

theorem connectedChoice_iff {ops : List SqOp} (h : GoodOps ops) {maxCu maxOpen minOpen : Int} {cats : List (List Nat)}
    (hcats : ∀ t, Elementary ops maxCu t → ownersOf ops t ∈ cats) {ts : List Tensor} (hts : ts.Nodup)
    (hel : ∀ t ∈ ts, Elementary ops maxCu t) (hsh : ts.Pairwise ShareNothing) :
    ConnectedChoice ((nOperators ops : Nat) - maxOpen) ((nOperators ops : Nat) - minOpen) cats (ops.map fun op => op.upper.size)
      (ops.map fun op => op.lower.size) (ts.map (ownersOf ops)) ↔
    Allowed ops maxCu maxOpen minOpen ts ∧ ConnectsAll ops ts ∧ HasPair ts := by
  have hpr : ∀ t ∈ ts, ProperTensor ops t := fun t ht => proper_of_elementary h (hel t ht)
  have hlen : ((ts.map (ownersOf ops)).map List.length).sum = 2 * (ts.map fun t => t.upper.size).sum := by
    rw [List.map_map, ← List.sum_map_mul_left]
    congr 1
    exact List.map_congr_left fun t ht => length_ownersOf (hpr t ht)
  constructor
  · intro hC
    refine ⟨⟨hts, hel, hsh, ?_⟩, ?_, ?_⟩
    · have := hC.window
      rw [hlen] at this
      push_cast at this ⊢; omega
    · intro S h1 h2
      obtain ⟨c, hc, ⟨k, hk, hkS⟩, k', hk', hkS'⟩ := hC.connects S (by simpa using h1) (by simpa using h2)
      rw [List.mem_map] at hc
      obtain ⟨t, ht, rfl⟩ := hc
      exact ⟨t, ht, ⟨k, hkS, (mem_ownersOf h (hpr t ht)).1 hk⟩, k', hkS', (mem_ownersOf h (hpr t ht)).1 hk'⟩
    · obtain ⟨c, hc, h2⟩ := hC.pair
      rw [List.mem_map] at hc
      obtain ⟨t, ht, rfl⟩ := hc
      rw [length_ownersOf (hpr t ht)] at h2
      exact ⟨t, ht, by omega⟩
  · rintro ⟨hA, hC, t0, ht0, hp⟩
    have hcon : Connects (ops.map fun op => op.upper.size).length (ts.map (ownersOf ops)) := by
      intro S h1 h2
      obtain ⟨t, ht, ⟨k, hk, hi⟩, k', hk', hi'⟩ := hC S (by simpa using h1) (by simpa using h2)
      exact ⟨_, List.mem_map.2 ⟨t, ht, rfl⟩, ⟨k, (mem_ownersOf h (hpr t ht)).2 hi, hk⟩,
        k', (mem_ownersOf h (hpr t ht)).2 hi', hk'⟩
    have hcre : ∀ (c : List (List Nat)) (f : Tensor → List Nat) (g : List Nat → List Nat),
        c = ts.map (ownersOf ops) → (∀ t ∈ ts, g (ownersOf ops t) = f t) → c.flatMap g = ts.flatMap f := by
      rintro c f g rfl hfg
      rw [List.flatMap_map]
      exact List.flatMap_congr fun t ht => hfg t ht
    refine ⟨?_, ?_, hcon, ?_, ?_, ?_, ?_⟩
    · intro c hc
      rw [List.mem_map] at hc
      obtain ⟨t, ht, rfl⟩ := hc
      exact hcats t (hel t ht)
    · intro k hk
      obtain ⟨a, ha, b, hb, hab⟩ := two_owners h (hel t0 ht0)
      have ha' := (mem_ownersOf h (hpr t0 ht0)).1 ha
      have hb' := (mem_ownersOf h (hpr t0 ht0)).1 hb
      obtain ⟨oa, hoa, _⟩ := ha'
      obtain ⟨ob, hob, _⟩ := hb'
      have hla := lt_length_of_getElem? hoa
      have hlb := lt_length_of_getElem? hob
      have : ∃ k' < ops.length, k' ≠ k := by
        by_cases e : a = k
        · exact ⟨b, hlb, fun e' => hab (e.trans e'.symm)⟩
        · exact ⟨a, hla, e⟩
      obtain ⟨k', hk1, hk2⟩ := this
      obtain ⟨c, hc, ⟨j, hj, hjS⟩, _⟩ := hcon {k} ⟨k, hk, by simp⟩ ⟨k', by simpa using hk1, by simpa using hk2⟩
      simp only [Finset.mem_singleton] at hjS
      exact ⟨c, hc, hjS ▸ hj⟩
    · exact ⟨_, List.mem_map.2 ⟨t0, ht0, rfl⟩, by rw [length_ownersOf (hpr t0 ht0)]; omega⟩
    · intro k
      have hnd : (ts.flatMap fun t => t.upper.list).Nodup := by
        rw [List.nodup_flatMap]
        refine ⟨fun t ht => (hpr t ht).upperNodup, hsh.imp ?_⟩
        intro a b hab
        rw [Function.onFun, List.disjoint_left]
        exact fun i hi hi' => hab.1 i hi hi'
      have := count_owner_le (fun op => op.upper.list) (ops := ops) hnd (by
        intro i hi
        rw [List.mem_flatMap] at hi
        obtain ⟨t, ht, hi⟩ := hi
        exact (hpr t ht).upperSub i hi) k
      unfold creUsed
      rw [hcre _ (fun t => t.upper.list.map (ownerU ops)) _ rfl]
      · rw [List.map_flatMap] at this; exact this
      · intro t ht
        rw [length_ownersOf (hpr t ht)]
        simp [ownersOf, Indices.size]
    · intro k
      have hnd : (ts.flatMap fun t => t.lower.list).Nodup := by
        rw [List.nodup_flatMap]
        refine ⟨fun t ht => (hpr t ht).lowerNodup, hsh.imp ?_⟩
        intro a b hab
        rw [Function.onFun, List.disjoint_left]
        exact fun i hi hi' => hab.2 i hi hi'
      have := count_owner_le (fun op => op.lower.list) (ops := ops) hnd (by
        intro i hi
        rw [List.mem_flatMap] at hi
        obtain ⟨t, ht, hi⟩ := hi
        exact (hpr t ht).lowerSub i hi) k
      unfold annUsed
      rw [hcre _ (fun t => t.lower.list.map (ownerL ops)) _ rfl]
      · rw [List.map_flatMap] at this; exact this
      · intro t ht
        rw [length_ownersOf (hpr t ht)]
        have := (hpr t ht).size
        simp [ownersOf, Indices.size]
    · rw [hlen]
      have := hA.window
      push_cast at this ⊢; omega

theorem mem_counterKeys {l : List (List Nat)} {c : List Nat} : c ∈ counterKeys l ↔ c ∈ l := by simp [counterKeys]

/-- What is known about the codes of the connected mode. -/
structure Coded (ops : List SqOp) (maxCu : Int) (x : EleCon Tensor) : Prop where
  nodupCats : x.cats.Nodup
  nodup : (x.cats.flatMap x.get).Nodup
  size : x.size = (x.cats.flatMap x.get).length
  mem : ∀ t, t ∈ x.cats.flatMap x.get ↔ Elementary ops maxCu t
  cats : ∀ c, c ∈ x.cats ↔ ∃ t, Elementary ops maxCu t ∧ c = ownersOf ops t
  decode : ∀ i < x.size, x.decode i = .ok (pick (x.cats.flatMap x.get) i)
  category : ∀ i < x.size, x.findCategory i = .ok (ownersOf ops (pick (x.cats.flatMap x.get) i))
  getMem : ∀ c ∈ x.cats, ∀ t ∈ x.get c, Elementary ops maxCu t

theorem coded {ops : List SqOp} (h : GoodOps ops) (maxCu : Int) : ∃ d, elementaryCategorized ops (checkMaxCu ops maxCu) = .ok d ∧
    Coded ops maxCu ⟨d, sortCategories (d.map Prod.fst)⟩ := by
  obtain ⟨d, h1, h2, h3, h4⟩ := dict_flatten h maxCu
  refine ⟨d, h1, ?_⟩
  have hperm := (C31_sequence (d.map Prod.fst)).1
  have hget : ∀ c ∈ sortCategories (d.map Prod.fst), (c, dictGet d c) ∈ d := fun c hc => mem_of_dictGet (hperm.mem_iff.1 hc)
  have hown : ∀ c ∈ sortCategories (d.map Prod.fst), ∀ t ∈ dictGet d c, c = ownersOf ops t := fun c hc t ht =>
    (h3 _ _ (hget c hc)).2.2 t ht
  have hnc : (sortCategories (d.map Prod.fst)).Nodup := hperm.nodup_iff.2 h2
  have hC26 := C26_codes (⟨d, sortCategories (d.map Prod.fst)⟩ : EleCon Tensor) hnc
  have hcode : ∀ i < (⟨d, sortCategories (d.map Prod.fst)⟩ : EleCon Tensor).size, ∃ c ∈ sortCategories (d.map Prod.fst), ∃ e ∈ dictGet d c,
      (⟨d, sortCategories (d.map Prod.fst)⟩ : EleCon Tensor).decode i = .ok e ∧
      (⟨d, sortCategories (d.map Prod.fst)⟩ : EleCon Tensor).findCategory i = .ok c ∧
      ((sortCategories (d.map Prod.fst)).flatMap (dictGet d))[i]? = some e := by
    intro i hi
    obtain ⟨p, ⟨hp1, hp2, hp3⟩, _⟩ := hC26.2.2.1 i hi
    obtain ⟨code, hc1, hc2, hc3, hc4, hc5⟩ := hC26.2.1 p.1 hp1 p.2 _ (List.getElem?_eq_getElem hp2)
    rw [hp3] at hc1
    obtain rfl := Except.ok.inj hc1
    exact ⟨p.1, hp1, _, List.getElem_mem hp2, hc3, hc4, hc5⟩
  refine ⟨hnc, ?_, hC26.1, ?_, ?_, ?_, ?_, ?_⟩
  · rw [List.nodup_flatMap]
    refine ⟨fun c hc => (h3 _ _ (hget c hc)).2.1, ?_⟩
    refine List.Pairwise.imp_of_mem ?_ hnc
    intro a b ha hb hab
    rw [Function.onFun, List.disjoint_left]
    intro t hta htb
    exact hab ((hown a ha t hta).trans (hown b hb t htb).symm)
  · intro t
    rw [← h4, List.mem_flatMap]
    constructor
    · rintro ⟨c, hc, ht⟩; exact ⟨c, _, hget c hc, ht⟩
    · rintro ⟨key, ts, hd, ht⟩
      refine ⟨key, hperm.mem_iff.2 (List.mem_map.2 ⟨_, hd, rfl⟩), ?_⟩
      show t ∈ dictGet d key
      rw [dictGet_of_mem h2 hd]; exact ht
  · intro c
    constructor
    · intro hc
      obtain ⟨t, ht⟩ := List.exists_mem_of_ne_nil _ (h3 _ _ (hget c hc)).1
      exact ⟨t, (h4 t).1 ⟨c, _, hget c hc, ht⟩, hown c hc t ht⟩
    · rintro ⟨t, ht, rfl⟩
      obtain ⟨key, ts, hd, ht⟩ := (h4 t).2 ht
      rw [← (h3 _ _ hd).2.2 t ht]
      exact hperm.mem_iff.2 (List.mem_map.2 ⟨_, hd, rfl⟩)
  · intro i hi
    obtain ⟨c, hc, e, he, h5, h6, h7⟩ := hcode i hi
    rw [h5]; congr 1; exact (pick_eq h7).symm
  · intro i hi
    obtain ⟨c, hc, e, he, h5, h6, h7⟩ := hcode i hi
    rw [h6, hown c hc e he]; congr 2; exact (pick_eq h7).symm
  · intro c hc t ht
    exact (h4 t).1 ⟨c, _, hget c hc, ht⟩

theorem goodSelection_iff {ops : List SqOp} {maxCu : Int} {x : EleCon Tensor} (hx : Coded ops maxCu x) (compat : Nat → Nat → Bool)
    (l : List (List Nat)) {ts : List Tensor} (hts : ts.Nodup) (hmem : ∀ t ∈ ts, t ∈ x.cats.flatMap x.get)
    (hc : ∀ i j, i ≠ j → i < (x.cats.flatMap x.get).length → j < (x.cats.flatMap x.get).length →
      (compat i j = true ↔ ShareNothing (pick (x.cats.flatMap x.get) i) (pick (x.cats.flatMap x.get) j))) :
    GoodSelection x compat (counterKeys l) (fun c => (l.count c : Int)) (ts.map (posIn (x.cats.flatMap x.get))).toFinset ↔
      ts.Pairwise ShareNothing ∧ l.Perm (ts.map (ownersOf ops)) := by
  set flat := x.cats.flatMap x.get with hflat
  have hpos : ∀ t ∈ ts, posIn flat t < x.size := fun t ht => by rw [hx.size]; exact posIn_lt (hmem t ht)
  have hcat : ∀ t ∈ ts, x.findCategory (posIn flat t) = .ok (ownersOf ops t) := by
    intro t ht
    rw [hx.category _ (hpos t ht), ← hflat, pick_posIn (hmem t ht)]
  have hcard : ∀ c, ((ts.map (posIn flat)).toFinset.filter fun i => x.findCategory i = .ok c).card = (ts.map (ownersOf ops)).count c := by
    intro c
    have e : ((ts.map (posIn flat)).toFinset.filter fun i => x.findCategory i = .ok c) =
        ((ts.map (posIn flat)).filter fun i => decide (x.findCategory i = .ok c)).toFinset := by
      ext i; simp
    rw [e, List.toFinset_card_of_nodup ((nodup_map_posIn hts hmem).filter _), List.filter_map, List.length_map,
      List.count_eq_countP, List.countP_map, List.countP_eq_length_filter]
    congr 1
    apply List.filter_congr
    intro t ht
    simp only [Function.comp, hcat t ht, Except.ok.injEq]
    by_cases e : ownersOf ops t = c <;> simp [e]
  unfold GoodSelection
  rw [compat_iff_share hts hmem compat hc]
  constructor
  · rintro ⟨h1, h2, h3⟩
    refine ⟨h2, ?_⟩
    rw [List.perm_iff_count]
    intro c
    by_cases hcl : c ∈ l
    · have := h3 c (mem_counterKeys.2 hcl)
      rw [hcard c] at this
      simp only at this
      omega
    · rw [List.count_eq_zero.2 hcl]
      symm
      rw [List.count_eq_zero]
      intro hm
      rw [List.mem_map] at hm
      obtain ⟨t, ht, rfl⟩ := hm
      obtain ⟨_, c', hc', he⟩ := h1 (posIn flat t) (by simp; exact ⟨t, ht, rfl⟩)
      rw [hcat t ht] at he
      obtain rfl := Except.ok.inj he
      exact hcl (mem_counterKeys.1 hc')
  · rintro ⟨h1, h2⟩
    refine ⟨?_, h1, ?_⟩
    · intro i hi
      simp only [List.mem_toFinset, List.mem_map] at hi
      obtain ⟨t, ht, rfl⟩ := hi
      exact ⟨hpos t ht, _, mem_counterKeys.2 (h2.mem_iff.2 (List.mem_map.2 ⟨t, ht, rfl⟩)), hcat t ht⟩
    · intro c _
      simp only
      rw [hcard c, h2.count_eq]

theorem forall₂_choose {α β γ : Type} {R : α → β → Prop} {S : α → γ → Prop} {f : γ → β} {la : List α} {lb : List β}
    (h : List.Forall₂ R la lb) (hR : ∀ a ∈ la, ∀ b, R a b → ∃ g, S a g ∧ b = f g) :
    ∃ lg : List γ, List.Forall₂ S la lg ∧ lb = lg.map f := by
  induction h with
  | nil => exact ⟨[], List.Forall₂.nil, rfl⟩
  | @cons a b la lb h1 _ ih =>
    obtain ⟨g, hg, rfl⟩ := hR a (by simp) _ h1
    obtain ⟨lg, h2, rfl⟩ := ih fun a ha => hR a (List.mem_cons_of_mem _ ha)
    exact ⟨g :: lg, List.Forall₂.cons hg h2, rfl⟩

theorem forall₂_mem_right {α β : Type} {R : α → β → Prop} {la : List α} {lb : List β} (h : List.Forall₂ R la lb) {b : β}
    (hb : b ∈ lb) : ∃ a ∈ la, R a b := by
  induction h with
  | nil => simp at hb
  | cons h1 _ ih =>
    rcases List.mem_cons.1 hb with rfl | hb
    · exact ⟨_, by simp, h1⟩
    · obtain ⟨a, ha, hr⟩ := ih hb; exact ⟨a, List.mem_cons_of_mem _ ha, hr⟩

theorem forall₂_mem_left {α β : Type} {R : α → β → Prop} {la : List α} {lb : List β} (h : List.Forall₂ R la lb) {a : α}
    (ha : a ∈ la) : ∃ b ∈ lb, R a b := by
  induction h with
  | nil => simp at ha
  | cons h1 _ ih =>
    rcases List.mem_cons.1 ha with rfl | ha
    · exact ⟨_, by simp, h1⟩
    · obtain ⟨b, hb, hr⟩ := ih ha; exact ⟨b, List.mem_cons_of_mem _ hb, hr⟩

theorem forall₂_pairwise {α β : Type} {R : α → β → Prop} {P : α → α → Prop} {Q : β → β → Prop} {la : List α} {lb : List β}
    (h : List.Forall₂ R la lb) (hp : la.Pairwise P) (hq : ∀ a a' b b', P a a' → R a b → R a' b' → Q b b') : lb.Pairwise Q := by
  induction h with
  | nil => exact List.Pairwise.nil
  | cons h1 h2 ih =>
    rw [List.pairwise_cons] at hp ⊢
    refine ⟨?_, ih hp.2⟩
    intro b' hb'
    obtain ⟨a', ha', hr⟩ := forall₂_mem_right h2 hb'
    exact hq _ _ _ _ (hp.1 a' ha') h1 hr

theorem flatten_flatten {α β : Type} (f : α → List β) (outs : List (List α)) :
    (outs.map fun o => (o.map f).flatten).flatten = outs.flatten.flatMap f := by
  induction outs with
  | nil => rfl
  | cons o os ih => simp [ih, List.flatMap_def]

theorem compat_of_rows {ops : List SqOp} {maxCu : Int} {x : EleCon Tensor} (hx : Coded ops maxCu x) {rows : List (Nat × Nat)}
    (hcompat : ∀ i j, (i, j) ∈ rows ↔ ∃ a b, i < x.size ∧ j < x.size ∧ x.decode i = .ok a ∧ x.decode j = .ok b ∧ ShareNothing a b) :
    (∀ i j, i ≠ j → i < (x.cats.flatMap x.get).length → j < (x.cats.flatMap x.get).length →
      (compatOf rows i j = true ↔ ShareNothing (pick (x.cats.flatMap x.get) i) (pick (x.cats.flatMap x.get) j))) ∧
    ∀ i j, compatOf rows i j = compatOf rows j i := by
  constructor
  · intro i j _ hi hj
    unfold compatOf
    rw [decide_eq_true_iff, hcompat]
    rw [← hx.size] at hi hj
    constructor
    · rintro ⟨a, b, _, _, ha, hb, hs⟩
      rw [hx.decode i hi] at ha
      rw [hx.decode j hj] at hb
      obtain rfl := Except.ok.inj ha
      obtain rfl := Except.ok.inj hb
      exact hs
    · intro hs
      exact ⟨_, _, hi, hj, hx.decode i hi, hx.decode j hj, hs⟩
  · intro i j
    unfold compatOf
    congr 1
    rw [hcompat, hcompat, eq_iff_iff]
    constructor
    · rintro ⟨a, b, h1, h2, h3, h4, h5⟩; exact ⟨b, a, h2, h1, h4, h3, h5.symm⟩
    · rintro ⟨a, b, h1, h2, h3, h4, h5⟩; exact ⟨b, a, h2, h1, h4, h3, h5.symm⟩

theorem categorized_ok {ops : List SqOp} (h : GoodOps ops) {maxCu : Int} {x : EleCon Tensor} (hx : Coded ops maxCu x)
    {rows : List (Nat × Nat)} (hc : ∀ i j, i ≠ j → i < (x.cats.flatMap x.get).length → j < (x.cats.flatMap x.get).length →
      (compatOf rows i j = true ↔ ShareNothing (pick (x.cats.flatMap x.get) i) (pick (x.cats.flatMap x.get) j)))
    (hsym : ∀ i j, compatOf rows i j = compatOf rows j i) {comCat : List (List Nat)} (hav : ∀ c ∈ comCat, c ∈ x.cats)
    {out : List (List Nat)} {target' : List Nat → Int}
    (hrun : x.CompositeRun (compatOf rows) (counterKeys comCat) (fun c => comCat.count c) out target') (expand : Bool) :
    ((∀ l ∈ out, l.Nodup) ∧ (out.map List.toFinset).Nodup ∧ ∀ X, X ∈ out.map List.toFinset ↔
      GoodSelection x (compatOf rows) (counterKeys comCat) (fun c => (comCat.count c : Int)) X) ∧
    out.mapM (fun coded => processCategorizedOne ops x comCat coded expand) =
      .ok (out.map fun con => resultRows ops expand (con.map (pick (x.cats.flatMap x.get)))) := by
  set flat := x.cats.flatMap x.get with hflat
  obtain ⟨_, ho1, ho2, ho3⟩ := C29_category_backtrack x hx.nodupCats (compatOf rows) hsym (counterKeys comCat)
    (fun c hcm => hav c (mem_counterKeys.1 hcm)) _
    (fun c hcm => by
      have := List.count_pos_iff.2 (mem_counterKeys.1 hcm)
      show (1 : Int) ≤ (comCat.count c : Int)
      omega) out target' hrun
  refine ⟨⟨ho1, ho2, ho3⟩, ?_⟩
  refine mapM_except_ok _ _ _ ?_
  intro con hcon
  have hg := (ho3 con.toFinset).1 (List.mem_map.2 ⟨con, hcon, rfl⟩)
  have hlt : ∀ i ∈ con, i < x.size := fun i hi => (hg.1 i (List.mem_toFinset.2 hi)).1
  have hmem : ∀ t ∈ con.map (pick flat), t ∈ flat := by
    intro t ht
    rw [List.mem_map] at ht
    obtain ⟨i, hi, rfl⟩ := ht
    exact pick_mem (by rw [hflat, ← hx.size]; exact hlt i hi)
  have hback : (con.map (pick flat)).map (posIn flat) = con := by
    rw [List.map_map]
    conv_rhs => rw [← List.map_id con]
    apply List.map_congr_left
    intro i hi
    exact posIn_pick hx.nodup (by rw [← hx.size]; exact hlt i hi)
  have hnd : (con.map (pick flat)).Nodup := List.Nodup.of_map (posIn flat) (by rw [hback]; exact ho1 con hcon)
  have hg' := (goodSelection_iff hx (compatOf rows) comCat hnd hmem hc).1 (by rw [hback]; exact hg)
  have hps : ProperSet ops (con.map (pick flat)) :=
    ⟨fun t ht => proper_of_elementary h ((hx.mem t).1 (hmem t ht)), hg'.1⟩
  unfold processCategorizedOne
  have hdec : con.mapM x.decode = .ok (con.map (pick flat)) := mapM_except_ok _ _ _ fun i hi => hx.decode i (hlt i hi)
  have hsum : (comCat.map List.length).sum = 2 * ((con.map (pick flat)).map fun t => t.upper.size).sum := by
    rw [(hg'.2.map List.length).sum_eq, List.map_map, ← List.sum_map_mul_left]
    congr 1
    exact List.map_congr_left fun t ht => length_ownersOf (hps.proper t ht)
  rw [hdec, hsum]
  have := assemble_ok h hps expand
  push_cast at this ⊢
  exact this

/-- The contractions that the connected mode finds: those whose strings are found by the search over categories. -/
def FoundChoice (ops : List SqOp) (maxCu maxOpen minOpen : Int) (ts : List Tensor) : Prop :=
  ts.Nodup ∧ (∀ t ∈ ts, Elementary ops maxCu t) ∧ ts.Pairwise ShareNothing ∧
    ∃ d, elementaryCategorized ops (checkMaxCu ops maxCu) = .ok d ∧ d.length ≠ 0 ∧
      ∃ l ∈ macroSearch ((nOperators ops : Nat) - maxOpen) ((nOperators ops : Nat) - minOpen) (sortCategories (d.map Prod.fst))
        (ops.map fun op => op.upper.size) (ops.map fun op => op.lower.size), l.Perm (ts.map (ownersOf ops))

theorem connected_spec' {ops : List SqOp} (h : GoodOps ops) {maxCu maxOpen minOpen : Int} {expand par : Bool}
    {batches : List (List (Int × List Tensor × SqOp))} (hr : ConnectedRun ops maxCu maxOpen minOpen expand par batches) :
    ∃ cs : List (List Tensor), cs.Pairwise (fun a b => ¬ a.Perm b) ∧
      (∀ ts, (∃ c ∈ cs, c.Perm ts) → Allowed ops maxCu maxOpen minOpen ts ∧ ConnectsAll ops ts ∧ HasPair ts) ∧
      ((ops.length ≤ 3 ∨ ∃ k, ∀ t, Elementary ops maxCu t → Involves ops k t) →
        ∀ ts, Allowed ops maxCu maxOpen minOpen ts ∧ ConnectsAll ops ts ∧ HasPair ts → ∃ c ∈ cs, c.Perm ts) ∧
      batches.flatten.Perm (cs.flatMap (resultRows ops expand)) ∧
      ∀ ts, (∃ c ∈ cs, c.Perm ts) ↔ FoundChoice ops maxCu maxOpen minOpen ts := by
  obtain ⟨d, hd, hr⟩ := hr
  obtain ⟨d', hd', hx⟩ := coded h maxCu
  obtain rfl : d = d' := by rw [hd] at hd'; exact Except.ok.inj hd'
  by_cases h0 : d.length = 0
  · rw [if_pos h0] at hr
    subst hr
    refine ⟨[], List.Pairwise.nil, by simp, ?_, by simp, ?_⟩
    swap
    · intro ts
      refine ⟨by simp, ?_⟩
      rintro ⟨-, -, -, d', hd'', hne, -⟩
      rw [hd] at hd''
      exact absurd h0 (Except.ok.inj hd'' ▸ hne)
    rintro _ ts ⟨hA, _, t, ht, _⟩
    exfalso
    have := (hx.mem t).2 (hA.elementary t ht)
    rw [List.length_eq_zero_iff.1 h0] at this
    simp [sortCategories] at this
  · rw [if_neg h0] at hr
    obtain ⟨rows, rest, hrows, hall, hbat⟩ := hr
    set x : EleCon Tensor := ⟨d, sortCategories (d.map Prod.fst)⟩ with hxdef
    set flat := x.cats.flatMap x.get with hflat
    rw [h.length_map, length_baseOrder] at hall
    obtain ⟨rows', hrows', _, hcompat⟩ := C27_compatible_categorized .spinOrbital x hx.nodupCats
      (fun c hc t ht => (proper_of_elementary h (hx.getMem c hc t ht)).ty)
      (fun c hc t ht => (proper_of_elementary h (hx.getMem c hc t ht)).ne)
    obtain rfl : rows = rows' := by rw [hrows] at hrows'; exact Except.ok.inj hrows'
    obtain ⟨hc, hsym⟩ := compat_of_rows hx hcompat
    have hlenU : (ops.map fun op => op.upper.size).length = ops.length := by simp
    have hvalid : ValidCategories (ops.map fun op => op.upper.size).length x.cats := by
      intro c hcm
      obtain ⟨t, ht, rfl⟩ := (hx.cats c).1 hcm
      have hp := proper_of_elementary h ht
      refine ⟨⟨_, length_ownersOf hp⟩, ?_, ?_⟩
      · obtain ⟨k, hk, _⟩ := two_owners h ht
        exact List.ne_nil_of_mem hk
      · intro k hk
        obtain ⟨op, hop, _⟩ := (mem_ownersOf h hp).1 hk
        rw [hlenU]; exact lt_length_of_getElem? hop
    have hne : (ops.map fun op => op.upper.size) ≠ [] := by
      intro e
      obtain ⟨e0, he0⟩ : ∃ e, e ∈ d := List.exists_mem_of_ne_nil _ fun e => h0 (by rw [e]; rfl)
      have hcm : e0.1 ∈ x.cats := (C31_sequence (d.map Prod.fst)).1.mem_iff.2 (List.mem_map.2 ⟨e0, he0, rfl⟩)
      obtain ⟨_, hnil, hk⟩ := hvalid _ hcm
      obtain ⟨k, hk'⟩ := List.exists_mem_of_ne_nil _ hnil
      have := hk k hk'
      rw [e] at this; simp at this
    obtain ⟨hsound, hpw⟩ := C30_sound ((nOperators ops : Nat) - maxOpen) ((nOperators ops : Nat) - minOpen) x.cats
      (ops.map fun op => op.upper.size) (ops.map fun op => op.lower.size) hx.nodupCats hvalid hne
    have hcomplete : (ops.length ≤ 3 ∨ ∃ k, ∀ t, Elementary ops maxCu t → Involves ops k t) → ∀ M,
        ConnectedChoice ((nOperators ops : Nat) - maxOpen) ((nOperators ops : Nat) - minOpen) x.cats
          (ops.map fun op => op.upper.size) (ops.map fun op => op.lower.size) M →
        ∃ l ∈ macroSearch ((nOperators ops : Nat) - maxOpen) ((nOperators ops : Nat) - minOpen) x.cats
          (ops.map fun op => op.upper.size) (ops.map fun op => op.lower.size), l.Perm M := by
      rintro (h3 | ⟨k, hk⟩) M hM
      · exact C31_complete_three_operators_partial _ _ x.cats _ _ hx.nodupCats hvalid (C31_sequence (d.map Prod.fst)).2
          (fun c hcm => by
            obtain ⟨t, ht, rfl⟩ := (hx.cats c).1 hcm
            exact two_owners h ht) (by rw [hlenU]; exact h3) M hM
      · exact C31_complete_common_operator_partial _ _ x.cats _ _ hx.nodupCats hvalid (C31_sequence (d.map Prod.fst)).2 k
          (fun c hcm => by
            obtain ⟨t, ht, rfl⟩ := (hx.cats c).1 hcm
            exact (mem_ownersOf h (proper_of_elementary h ht)).2 (hk t ht)) M hM
    -- the selections of one batch
    have hbatch : ∀ comCat ∈ macroSearch ((nOperators ops : Nat) - maxOpen) ((nOperators ops : Nat) - minOpen) x.cats
        (ops.map fun op => op.upper.size) (ops.map fun op => op.lower.size), ∀ batch,
        CategorizedBatch ops x rows comCat expand batch →
        ∃ out : List (List Nat), ((∀ l ∈ out, l.Nodup) ∧ (out.map List.toFinset).Nodup ∧ ∀ X, X ∈ out.map List.toFinset ↔
          GoodSelection x (compatOf rows) (counterKeys comCat) (fun c => (comCat.count c : Int)) X) ∧
          batch = (out.map fun con => resultRows ops expand (con.map (pick flat))).flatten := by
      rintro comCat hcc batch ⟨out, target', results, hrun, hres, rfl⟩
      obtain ⟨ho, hm⟩ := categorized_ok h hx hc hsym (hsound comCat hcc).available hrun expand
      refine ⟨out, ho, ?_⟩
      rw [hres] at hm
      rw [Except.ok.inj hm]
    obtain ⟨outs, houts, hrest⟩ := forall₂_choose hall hbatch
    have hmemout : ∀ con, con ∈ outs.flatten → ∃ comCat ∈ macroSearch ((nOperators ops : Nat) - maxOpen)
        ((nOperators ops : Nat) - minOpen) x.cats (ops.map fun op => op.upper.size) (ops.map fun op => op.lower.size),
        con.Nodup ∧ GoodSelection x (compatOf rows) (counterKeys comCat) (fun c => (comCat.count c : Int)) con.toFinset := by
      intro con hcon
      rw [List.mem_flatten] at hcon
      obtain ⟨out, ho, hcon⟩ := hcon
      obtain ⟨comCat, hcc, h1, h2, h3⟩ := forall₂_mem_right houts ho
      exact ⟨comCat, hcc, h1 con hcon, (h3 _).1 (List.mem_map.2 ⟨con, hcon, rfl⟩)⟩
    have hlt : ∀ con ∈ outs.flatten, con.Nodup ∧ ∀ i ∈ con, i < flat.length := by
      intro con hcon
      obtain ⟨comCat, _, h1, h2⟩ := hmemout con hcon
      exact ⟨h1, fun i hi => by rw [hflat, ← hx.size]; exact (h2.1 i (List.mem_toFinset.2 hi)).1⟩
    -- any good selection is given by contractions
    have hofX : ∀ (X : Finset Nat), (∀ i ∈ X, i < flat.length) → ∃ ts : List Tensor, ts.Nodup ∧ (∀ t ∈ ts, t ∈ flat) ∧
        (ts.map (posIn flat)).toFinset = X := by
      intro X hX
      have hback : (X.toList.map (pick flat)).map (posIn flat) = X.toList := by
        rw [List.map_map]
        conv_rhs => rw [← List.map_id X.toList]
        apply List.map_congr_left
        intro i hi
        exact posIn_pick hx.nodup (hX i (Finset.mem_toList.1 hi))
      refine ⟨X.toList.map (pick flat), List.Nodup.of_map (posIn flat) (by rw [hback]; exact X.nodup_toList), ?_, ?_⟩
      · intro t ht
        rw [List.mem_map] at ht
        obtain ⟨i, hi, rfl⟩ := ht
        exact pick_mem (hX i (Finset.mem_toList.1 hi))
      · rw [hback]; simp
    have hnodup : (outs.flatten.map List.toFinset).Nodup := by
      rw [List.map_flatten, List.nodup_flatten]
      constructor
      · intro l hl
        rw [List.mem_map] at hl
        obtain ⟨out, ho, rfl⟩ := hl
        obtain ⟨comCat, hcc, h1, h2, h3⟩ := forall₂_mem_right houts ho
        exact h2
      · rw [List.pairwise_map]
        refine forall₂_pairwise houts hpw ?_
        intro c c' out out' hcc' ho ho'
        rw [List.disjoint_left]
        intro X hX hX'
        have g1 := (ho.2.2 X).1 hX
        have g2 := (ho'.2.2 X).1 hX'
        obtain ⟨ts, ht1, ht2, rfl⟩ := hofX X fun i hi => by rw [hflat, ← hx.size]; exact (g1.1 i hi).1
        have p1 := ((goodSelection_iff hx (compatOf rows) c ht1 ht2 hc).1 g1).2
        have p2 := ((goodSelection_iff hx (compatOf rows) c' ht1 ht2 hc).1 g2).2
        exact hcc' (p1.trans p2.symm)
    obtain ⟨hs1, hs2⟩ := selections_spec hx.nodup outs.flatten hlt hnodup
    refine ⟨_, hs1, ?_, ?_, ?_, ?_⟩
    · intro ts
      rw [hs2]
      rintro ⟨h1, h2, hin⟩
      rw [List.mem_map] at hin
      obtain ⟨con, hcon, he⟩ := hin
      obtain ⟨comCat, hcc, hcn, hg⟩ := hmemout con hcon
      rw [he] at hg
      obtain ⟨g1, g2⟩ := (goodSelection_iff hx (compatOf rows) comCat h1 h2 hc).1 hg
      exact (connectedChoice_iff h (fun t ht => (hx.cats _).2 ⟨t, ht, rfl⟩) h1 (fun t ht => (hx.mem t).1 (h2 t ht)) g1).1
        ((hsound comCat hcc).perm g2)
    · rintro h3 ts ⟨hA, hC, hP⟩
      rw [hs2]
      have h2 : ∀ t ∈ ts, t ∈ flat := fun t ht => (hx.mem t).2 (hA.elementary t ht)
      refine ⟨hA.nodup, h2, ?_⟩
      obtain ⟨l, hl, hlp⟩ := hcomplete h3 _ ((connectedChoice_iff h (fun t ht => (hx.cats _).2 ⟨t, ht, rfl⟩) hA.nodup hA.elementary
        hA.share).2 ⟨hA, hC, hP⟩)
      obtain ⟨out, ho, ho1, ho2, ho3⟩ := forall₂_mem_left houts hl
      have hg := (goodSelection_iff hx (compatOf rows) l hA.nodup h2 hc).2 ⟨hA.share, hlp⟩
      have := (ho3 _).2 hg
      rw [List.mem_map] at this ⊢
      obtain ⟨con, hcon, he⟩ := this
      exact ⟨con, List.mem_flatten.2 ⟨out, ho, hcon⟩, he⟩
    · have hb : batches.Perm rest := by
        cases par with
        | true => simpa using hbat
        | false => simp only [Bool.false_eq_true, if_false] at hbat; rw [hbat]
      refine hb.flatten.trans ?_
      rw [hrest, List.flatMap_map, flatten_flatten]
    · intro ts
      rw [hs2]
      constructor
      · rintro ⟨h1, h2, hin⟩
        rw [List.mem_map] at hin
        obtain ⟨con, hcon, he⟩ := hin
        obtain ⟨comCat, hcc, hcn, hg⟩ := hmemout con hcon
        rw [he] at hg
        obtain ⟨g1, g2⟩ := (goodSelection_iff hx (compatOf rows) comCat h1 h2 hc).1 hg
        exact ⟨h1, fun t ht => (hx.mem t).1 (h2 t ht), g1, d, hd, h0, comCat, hcc, g2⟩
      · rintro ⟨h1, h2, h3, d', hd'', -, l, hl, hlp⟩
        rw [hd] at hd''
        obtain rfl := Except.ok.inj hd''
        have h2' : ∀ t ∈ ts, t ∈ flat := fun t ht => (hx.mem t).2 (h2 t ht)
        refine ⟨h1, h2', ?_⟩
        obtain ⟨out, ho, ho1, ho2, ho3⟩ := forall₂_mem_left houts hl
        have hg := (goodSelection_iff hx (compatOf rows) l h1 h2' hc).2 ⟨h3, hlp⟩
        have := (ho3 _).2 hg
        rw [List.mem_map] at this ⊢
        obtain ⟨con, hcon, he⟩ := this
        exact ⟨con, List.mem_flatten.2 ⟨out, ho, hcon⟩, he⟩

/-- What a run of the connected mode returns: results for allowed contractions that connect all strings and contain a pair
contraction, each contraction once; all of them if there are at most three strings or all elementary contractions involve
one common string. -/
theorem connected_spec {ops : List SqOp} (h : GoodOps ops) {maxCu maxOpen minOpen : Int} {expand par : Bool}
    {batches : List (List (Int × List Tensor × SqOp))} (hr : ConnectedRun ops maxCu maxOpen minOpen expand par batches) :
    ∃ cs : List (List Tensor), cs.Pairwise (fun a b => ¬ a.Perm b) ∧
      (∀ ts, (∃ c ∈ cs, c.Perm ts) → Allowed ops maxCu maxOpen minOpen ts ∧ ConnectsAll ops ts ∧ HasPair ts) ∧
      ((ops.length ≤ 3 ∨ ∃ k, ∀ t, Elementary ops maxCu t → Involves ops k t) →
        ∀ ts, Allowed ops maxCu maxOpen minOpen ts ∧ ConnectsAll ops ts ∧ HasPair ts → ∃ c ∈ cs, c.Perm ts) ∧
      batches.flatten.Perm (cs.flatMap (resultRows ops expand)) := by
  obtain ⟨cs, h1, h2, h3, h4, -⟩ := connected_spec' h hr
  exact ⟨cs, h1, h2, h3, h4⟩

end Dsrg
