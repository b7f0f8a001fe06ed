import Verif.Lemmas.SoundTerm

/-!
What follows simplification in `canonicalize_sympy` succeeds on terms with two sides.
-/

namespace Dsrg

theorem slotNames_total {ρ : Index → Except PyErr Index} : ∀ (L : List Index) (tr : Index → Nat), (∀ i ∈ L, ∃ m, ρ i = .ok m) →
    ∃ names, slotNames ρ tr L = .ok names
  | [], _, _ => ⟨[], rfl⟩
  | i :: L, tr, h => by
    obtain ⟨m, hm⟩ := h i (by simp)
    obtain ⟨names, hn⟩ := slotNames_total L (Function.update tr m (tr m + 1)) fun i hi => h i (List.mem_cons_of_mem _ hi)
    refine ⟨tr m :: names, ?_⟩
    rw [slotNames, hm]
    simp only [bind, Except.bind, hn, pure, Except.pure]

/-- Labels that occur twice get the names `0, 1, 2, ...`. -/
theorem slotNames_perm {ρ : Index → Except PyErr Index} {f : Index → Index} (hρ : Realizes ρ f) {D L : List Index} {names : List Nat}
    (hDn : D.Nodup) (hD : ∀ m, m ∈ D ↔ m ∈ L.map f) (h2 : ∀ m ∈ L.map f, (L.map f).count m = 2)
    (h : slotNames ρ (fun m => 2 * D.idxOf m) L = .ok names) : names.Perm (List.range (2 * D.length)) := by
  obtain ⟨k1, k2, -⟩ := slotNames_spec hρ L _ _ h
  have hp : (L.map f).Perm (D ++ D) := by
    rw [List.perm_iff_count]
    intro m
    rw [List.count_append]
    by_cases hm : m ∈ D
    · rw [h2 m ((hD m).1 hm), List.count_eq_one_of_mem hDn hm]
    · rw [List.count_eq_zero_of_not_mem hm, List.count_eq_zero_of_not_mem fun h => hm ((hD m).2 h)]
  have hlen : names.length = 2 * D.length := by
    rw [k1, ← List.length_map (f := f), hp.length_eq, List.length_append]; omega
  have hsub : (List.range (2 * D.length)) ⊆ names := by
    intro n hn
    have hn' := List.mem_range.1 hn
    have hlt : n / 2 < D.length := by omega
    have hm : D[n / 2] ∈ L.map f := (hD _).1 (List.getElem_mem _)
    obtain ⟨p, p1, p2, -, p4⟩ := k2 D[n / 2] (n % 2) (by rw [h2 _ hm]; omega)
    rw [hDn.idxOf_getElem] at p4
    have : names[p] = n := by rw [p4]; omega
    rw [← this]; exact List.getElem_mem _
  exact (List.Subperm.perm_of_length_le (List.nodup_range.subperm hsub) (by rw [List.length_range, hlen])).symm

theorem bsgs_total {x : IndicesPair} (hty : x.upper.ty.isAntisym = true) (hl : x.nUpper = x.nLower) (hp : x.nUpper ≠ 0) (h : Bool) :
    ∃ g, x.bsgs h false = .ok g := by
  unfold IndicesPair.bsgs
  rw [if_neg (by unfold IndicesPair.size; omega), if_neg (by simp), if_neg (by rw [hty]; simp)]
  cases h
  · rw [if_pos rfl, if_neg (by omega)]; exact ⟨_, rfl⟩
  · rw [if_neg (by simp), if_neg (not_not.2 hl)]; exact ⟨_, rfl⟩

theorem mapM_total {α β : Type} {ρ : α → Except PyErr β} : ∀ {l : List α}, (∀ a ∈ l, ∃ b, ρ a = .ok b) → ∃ r, l.mapM ρ = .ok r
  | [], _ => ⟨[], rfl⟩
  | a :: l, h => by
    obtain ⟨b, hb⟩ := h a (by simp)
    obtain ⟨r, hr⟩ := mapM_total (l := l) fun i hi => h i (List.mem_cons_of_mem _ hi)
    exact ⟨b :: r, mapM_cons_ok.2 ⟨b, r, hb, hr, rfl⟩⟩

theorem bsgsList_total {ty : IType} (hanti : ty.isAntisym = true) {ts : List Tensor} {op : SqOp} (hts : ∀ x ∈ ts, SoundTensorOf ty x) (hop : op.upper.ty = ty)
    (hbal : op.upper.list.length = op.lower.list.length) (hermitian : Bool) : ∃ v, bsgsList ts op hermitian = .ok v := by
  have hgrp : ∀ g ∈ tensorGroups ts, ∃ e, groupEntry hermitian g = .ok e := by
    intro g hg
    have hne : g ≠ [] := List.ne_nil_of_mem_splitBy hg
    cases g with
    | nil => exact absurd rfl hne
    | cons t g =>
      have ht : t ∈ ts := by
        rw [← List.flatten_splitBy (r := fun a b : Tensor => decide (a.name = b.name ∧ a.pair.nLower = b.pair.nLower)) (l := ts)]
        exact List.mem_flatten.2 ⟨_, hg, by simp⟩
      have hst := hts t ht
      obtain ⟨gens, hgens⟩ := bsgs_total (x := t.pair) (by rw [show t.pair.upper.ty = ty from hst.upper]; exact hanti) hst.len
        (fun h => hst.pos (List.eq_nil_of_length_eq_zero h)) hermitian
      refine ⟨⟨gens, t.pair.size, (t :: g).length⟩, ?_⟩
      unfold groupEntry
      simp only [bind, Except.bind, hgens, pure, Except.pure]
  have hnb : ∀ t ∈ ts, ∃ n, t.pair.nBody = .ok n := by
    intro t ht
    unfold IndicesPair.nBody
    rw [if_neg (not_not.2 (show t.pair.nLower = t.pair.nUpper from (hts t ht).len.symm))]
    exact ⟨_, rfl⟩
  obtain ⟨ns, hns⟩ := mapM_total hnb
  obtain ⟨rest, hrest⟩ := mapM_total hgrp
  unfold bsgsList
  by_cases h0 : op.size = 0
  · rw [if_pos h0]
    simp only [bind, Except.bind, pure, Except.pure, hns, hrest]
    exact ⟨_, rfl⟩
  · rw [if_neg h0]
    have hsz : op.size = op.nUpper + op.nLower := rfl
    have hbal' : op.nUpper = op.nLower := hbal
    obtain ⟨gens, hgens⟩ := bsgs_total (x := op) (by rw [hop]; exact hanti) hbal (by omega) false
    unfold IndicesPair.opBsgs
    rw [if_pos (by rw [hop]; exact hanti), hgens]
    simp only [bind, Except.bind, pure, Except.pure, hns, hrest]
    exact ⟨_, rfl⟩

theorem dummyAt_total {D : List Index} {n : Nat} (h : n < 2 * D.length) : dummyAt D n = .ok (look D n) := by
  have hlt : n / 2 < D.length := by omega
  unfold dummyAt
  rw [List.getElem?_eq_getElem hlt, look_of_lt hlt]

theorem mapM_dummyAt_total {D : List Index} {l : List Nat} (h : ∀ n ∈ l, n < 2 * D.length) : l.mapM (dummyAt D) = .ok (l.map (look D)) :=
  mapM_ok_of_forall fun n hn => dummyAt_total (h n hn)

theorem Indices.make_of {ty : IType} {l : List Index} (hn : l.Nodup) (hb : ty = .spinOrbital → ∀ i ∈ l, i.isBeta = false) :
    Indices.make ty l = .ok ⟨ty, l⟩ := by
  unfold Indices.make
  rw [if_neg (not_not.2 hn), if_neg]
  rintro ⟨hso, h⟩
  rw [List.any_eq_true] at h
  obtain ⟨i, hi, hb'⟩ := h
  rw [hb hso i hi] at hb'; simp at hb'

/-- The tensors are rebuilt. -/
theorem rebuildTensors_total {ty : IType} {D : List Index} : ∀ (ts : List Tensor) (names : List Nat), (∀ t ∈ ts, t.upper.ty = ty) →
    (∀ n ∈ names.take (slotCount ts), n < 2 * D.length) → (ty = .spinOrbital → ∀ i ∈ D, i.isBeta = false) →
    (∀ b ∈ cutTensors ts (names.map (look D)), b.1.Nodup ∧ b.2.Nodup) →
    (∀ x ∈ refillAll ts (names.map (look D)), SoundTensorOf ty x) →
    rebuildTensors D ts names = .ok (refillAll ts (names.map (look D))) := by
  intro ts
  induction ts with
  | nil => intro names _ _ _ _ _; rfl
  | cons t ts ih =>
    intro names hty hn hb hnd hs
    rw [slotCount_cons] at hn
    have hsz : t.pair.size = t.pair.nUpper + t.pair.nLower := rfl
    have hlo : ∀ n ∈ names.take t.pair.nLower, n < 2 * D.length := fun n hn' => hn n ((List.take_subset_take_left _ (by omega)) hn')
    have hup : ∀ n ∈ (names.drop t.pair.nLower).take t.pair.nUpper, n < 2 * D.length := by
      intro n hn'
      refine hn n ?_
      have h1 : n ∈ names.take t.pair.size := by
        rw [hsz, Nat.add_comm, List.take_add]; exact List.mem_append_right _ hn'
      exact (List.take_subset_take_left _ (by omega)) h1
    rw [cutTensors, List.forall_mem_cons] at hnd
    rw [refillAll, List.forall_mem_cons] at hs
    have hbeta : ∀ l : List Nat, (∀ n ∈ l, n < 2 * D.length) → ty = .spinOrbital → ∀ i ∈ l.map (look D), i.isBeta = false := by
      intro l hl hso i hi
      obtain ⟨n, hn', rfl⟩ := List.mem_map.1 hi
      have := hl n hn'
      rw [look_of_lt (by omega)]
      exact hb hso _ (List.getElem_mem _)
    have e1 : (names.map (look D)).take t.pair.nLower = (names.take t.pair.nLower).map (look D) := List.map_take.symm
    have e2 : ((names.map (look D)).drop t.pair.nLower).take t.pair.nUpper = ((names.drop t.pair.nLower).take t.pair.nUpper).map (look D) := by
      rw [List.map_take, List.map_drop]
    have k1 := Indices.make_of (by rw [← e1]; exact hnd.1.1) (hbeta _ hlo)
    have k2 := Indices.make_of (by rw [← e2]; exact hnd.1.2) (hbeta _ hup)
    have hb' : ty = .spinOrbital → ∀ i ∈ (t.refill (names.map (look D))).pair.indices, i.isBeta = false := by
      intro hso i hi
      have hi' : i ∈ ((names.map (look D)).drop t.pair.nLower).take t.pair.nUpper ++ (names.map (look D)).take t.pair.nLower := hi
      rw [e1, e2, List.mem_append] at hi'
      exact hi'.elim (hbeta _ hup hso i) (hbeta _ hlo hso i)
    have k3 := hs.1.make hb'
    have ht := hty t (by simp)
    rw [rebuildTensors, mapM_dummyAt_total hlo, mapM_dummyAt_total hup, ht]
    simp only [bind, Except.bind, k1, k2]
    have ex : Tensor.make t.cls (⟨ty, ((names.drop t.pair.nLower).take t.pair.nUpper).map (look D)⟩ : Indices)
        ⟨ty, (names.take t.pair.nLower).map (look D)⟩ t.name t.priority = .ok (t.refill (names.map (look D))) := by
      rw [← k3]
      unfold Tensor.refill Tensor.upper Tensor.lower
      simp only [e1, e2]
      rw [show t.pair.upper.ty = ty from ht]
    rw [ex]
    have := ih (names.drop t.pair.size) (fun x hx => hty x (List.mem_cons_of_mem _ hx)) (by
      intro n hn'
      refine hn n ?_
      rw [List.take_add]; exact List.mem_append_right _ hn') hb (by rw [List.map_drop]; exact hnd.2) (by rw [List.map_drop]; exact hs.2)
    simp only [this, pure, Except.pure]
    rw [refillAll, List.map_drop]

theorem rebuildOp_total {ty : IType} {D : List Index} {op : SqOp} {names : List Nat} (hty : op.upper.ty = ty)
    (hn : ∀ n ∈ names.take op.size, n < 2 * D.length) (hb : ty = .spinOrbital → ∀ i ∈ D, i.isBeta = false)
    (hnd : ((names.map (look D)).take op.nLower).Nodup ∧ (((names.map (look D)).drop op.nLower).take op.nUpper).Nodup) :
    rebuildOp D op names = .ok (op.refill (names.map (look D))) := by
  have hsz : op.size = op.nUpper + op.nLower := rfl
  have hlo : ∀ n ∈ names.take op.nLower, n < 2 * D.length := fun n hn' => hn n ((List.take_subset_take_left _ (by omega)) hn')
  have hup : ∀ n ∈ (names.drop op.nLower).take op.nUpper, n < 2 * D.length := by
    intro n hn'
    refine hn n ?_
    rw [hsz, Nat.add_comm, List.take_add]; exact List.mem_append_right _ hn'
  have hbeta : ∀ l : List Nat, (∀ n ∈ l, n < 2 * D.length) → ty = .spinOrbital → ∀ i ∈ l.map (look D), i.isBeta = false := by
    intro l hl hso i hi
    obtain ⟨n, hn', rfl⟩ := List.mem_map.1 hi
    have := hl n hn'
    rw [look_of_lt (by omega)]
    exact hb hso _ (List.getElem_mem _)
  have e1 : (names.map (look D)).take op.nLower = (names.take op.nLower).map (look D) := List.map_take.symm
  have e2 : ((names.map (look D)).drop op.nLower).take op.nUpper = ((names.drop op.nLower).take op.nUpper).map (look D) := by
    rw [List.map_take, List.map_drop]
  have k1 := Indices.make_of (by rw [← e1]; exact hnd.1) (hbeta _ hlo)
  have k2 := Indices.make_of (by rw [← e2]; exact hnd.2) (hbeta _ hup)
  unfold rebuildOp
  rw [mapM_dummyAt_total hlo, mapM_dummyAt_total hup, hty]
  simp only [bind, Except.bind, k1, k2]
  unfold IndicesPair.make IndicesPair.refill
  rw [if_neg (by simp), hty, e1, e2]

/-- The names of a matched product decode to different labels in each half. -/
theorem matched_nodup {D : List Index} (hD : D.Nodup) {obs : List (OBlock Nat)} (hm : Matched obs)
    (hr : (flatBlocks (obs.map Prod.snd)).Perm (List.range (2 * D.length))) :
    ((sideA obs).map (look D)).Nodup ∧ ((sideB obs).map (look D)).Nodup := by
  have hlt : ∀ n ∈ sideA obs ++ sideB obs, n < 2 * D.length := by
    intro n hn
    exact List.mem_range.1 (hr.mem_iff.1 ((sides_perm obs).mem_iff.1 hn))
  have hcount : ∀ d, ((List.range (2 * D.length)).map (· / 2)).count d ≤ 2 := by
    have : ∀ N, ((List.range (2 * N)).map (· / 2)).Perm (List.range N ++ List.range N) := by
      intro N
      induction N with
      | zero => exact .refl _
      | succ N ih =>
        rw [show 2 * (N + 1) = 2 * N + 1 + 1 by omega, List.range_succ, List.range_succ, List.range_succ, List.map_append, List.map_append]
        have a : [2 * N].map (· / 2) = [N] := by simp
        have b : [2 * N + 1].map (· / 2) = [N] := by simp; omega
        rw [a, b]
        refine (List.Perm.append_right _ (List.Perm.append_right _ ih)).trans ?_
        simp only [List.append_assoc]
        refine List.Perm.append_left _ ?_
        rw [← List.append_assoc, ← List.append_assoc]
        exact List.Perm.append_right _ List.perm_append_comm
    intro d
    rw [(this _).count_eq, List.count_append]
    have := List.nodup_iff_count_le_one.1 (List.nodup_range (n := D.length)) d
    omega
  have hA : ((sideA obs).map (· / 2)).Nodup := by
    rw [List.nodup_iff_count_le_one]
    intro d
    have h1 := hcount d
    rw [← ((sides_perm obs).trans hr |>.map (· / 2)).count_eq, List.map_append, List.count_append, ← hm.count_eq] at h1
    omega
  have hB : ((sideB obs).map (· / 2)).Nodup := hm.nodup_iff.1 hA
  have key : ∀ l : List Nat, (∀ n ∈ l, n < 2 * D.length) → (l.map (· / 2)).Nodup → (l.map (look D)).Nodup := by
    intro l hl hnd
    have : l.map (look D) = (l.map (· / 2)).map fun d => D.getD d ⟨⟨.g, false⟩, 0⟩ := by
      rw [List.map_map]; rfl
    rw [this]
    refine hnd.map_on ?_
    intro a ha b hb e
    obtain ⟨n, hn, rfl⟩ := List.mem_map.1 ha
    obtain ⟨m, hm, rfl⟩ := List.mem_map.1 hb
    have := hl n hn; have := hl m hm
    have e' : look D n = look D m := e
    rw [look_of_lt (show n / 2 < D.length by omega), look_of_lt (show m / 2 < D.length by omega)] at e'
    exact (List.Nodup.getElem_inj_iff hD).1 e'
  exact ⟨key _ (fun n hn => hlt n (List.mem_append_left _ hn)) hA, key _ (fun n hn => hlt n (List.mem_append_right _ hn)) hB⟩

theorem cutBlocks_slotLabels (ts : List Tensor) (op : SqOp) : cutBlocks ts op (slotLabels ts op) = termBlocks ts op := by
  have h := termBlocks_refill ts op (slotLabels ts op)
  obtain ⟨h1, h2⟩ := refill_slotLabels id ts op
  rw [List.map_id] at h1 h2
  rw [← h, h1, h2]
  unfold termBlocks
  rw [List.map_map]
  congr 1
  · simp [pairBlock, IndicesPair.relabel]
  · apply List.map_congr_left
    intro t _
    simp [pairBlock, Tensor.relabel, Tensor.upper, Tensor.lower]

theorem list_prod_ext {α β : Type} : ∀ {l m : List (α × β)}, l.map Prod.fst = m.map Prod.fst → l.map Prod.snd = m.map Prod.snd → l = m
  | [], [], _, _ => rfl
  | [], _ :: _, h, _ => by simp at h
  | _ :: _, [], h, _ => by simp at h
  | (a, b) :: l, (c, d) :: m, h, h' => by
    simp only [List.map_cons, List.cons.injEq] at h h'
    rw [h.1, h'.1, list_prod_ext h.2 h'.2]

theorem soundTensor_refill {ty : IType} : ∀ (ts : List Tensor) (L : List Index), (∀ x ∈ ts, SoundTensorOf ty x) → L.length = slotCount ts →
    HalvesHave (fun c l m => (c = .cluster → ClusterHalf l ∧ ClusterHalf m) ∧ (ty ≠ .spinOrbital → l.countP Space.beta = m.countP Space.beta))
      ts (cutTensors ts L) → ∀ x ∈ refillAll ts L, SoundTensorOf ty x := by
  intro ts
  induction ts with
  | nil => intro L _ _ _ x hx; simp [refillAll] at hx
  | cons t ts ih =>
    intro L hs hl hh
    have hsz : t.pair.size = t.pair.nUpper + t.pair.nLower := rfl
    rw [slotCount_cons] at hl
    rw [cutTensors] at hh
    unfold HalvesHave at hh
    rw [List.forall₂_cons] at hh
    rw [refillAll, List.forall_mem_cons]
    refine ⟨?_, ih _ (fun x hx => hs x (List.mem_cons_of_mem _ hx)) (by rw [List.length_drop]; omega) hh.2⟩
    have ht := hs t (by simp)
    have hlen : t.pair.nUpper = t.pair.nLower := ht.len
    have hu : (t.refill L).upper.list.length = t.pair.nUpper := by
      show ((L.drop t.pair.nLower).take t.pair.nUpper).length = _
      rw [List.length_take, List.length_drop]; omega
    have hlo : (t.refill L).lower.list.length = t.pair.nLower := by
      show (L.take t.pair.nLower).length = _
      rw [List.length_take]; omega
    refine ⟨ht.upper, ht.upper, by rw [hu, hlo, hlen], ?_, ?_, ?_, ?_⟩
    · intro h0
      apply ht.pos
      apply List.eq_nil_of_length_eq_zero
      rw [h0] at hu
      exact hu.symm
    · intro hc
      rw [hu]; exact ht.one hc
    · intro hc
      exact ⟨(hh.1.1 hc).2, (hh.1.1 hc).1⟩
    · intro hso
      have := hh.1.2 hso
      rw [List.countP_map, List.countP_map] at this
      exact this.symm

theorem refillAll_density {ts : List Tensor} (L : List Index) (h : ∃ x ∈ ts, x.isDensity = false) : ∃ x ∈ refillAll ts L, x.isDensity = false := by
  induction ts generalizing L with
  | nil => simp at h
  | cons t ts ih =>
    rw [refillAll]
    obtain ⟨x, hx, hd⟩ := h
    rcases List.mem_cons.1 hx with rfl | hx
    · exact ⟨_, List.mem_cons_self, hd⟩
    · obtain ⟨y, hy, hyd⟩ := ih (L.drop t.pair.size) ⟨x, hx, hd⟩
      exact ⟨y, List.mem_cons_of_mem _ hy, hyd⟩

/-- The labels of cumulants are of active orbitals or holes. -/
def LowTensor (x : Tensor) : Prop := x.cls = .cumulant → ∀ i ∈ x.pair.indices, i.space.kind = .h ∨ i.space.kind = .a

/-- What is known about the spaces of the labels in the halves of a tensor; the condition on cumulants depends on `P`. -/
structure HalfOk (ty : IType) (P : Prop) (c : TCls) (l m : List Space) : Prop where
  cluster : c = .cluster → ClusterHalf l ∧ ClusterHalf m
  low : P → c = .cumulant → (∀ s ∈ l, s.kind = .h ∨ s.kind = .a) ∧ ∀ s ∈ m, s.kind = .h ∨ s.kind = .a
  spin : ty ≠ .spinOrbital → l.countP Space.beta = m.countP Space.beta

theorem HalfOk.perm {ty : IType} {P : Prop} {c : TCls} {l l' m m' : List Space} (hp : l.Perm l') (hq : m.Perm m') (h : HalfOk ty P c l m) :
    HalfOk ty P c l' m' :=
  ⟨fun hc => ⟨(h.1 hc).1.perm hp, (h.1 hc).2.perm hq⟩,
    fun p hc => ⟨fun s hs => (h.2 p hc).1 s (hp.mem_iff.2 hs), fun s hs => (h.2 p hc).2 s (hq.mem_iff.2 hs)⟩,
    fun hs => by rw [← hp.countP_eq, ← hq.countP_eq]; exact h.3 hs⟩

theorem HalfOk.swap {ty : IType} {P : Prop} {c : TCls} {l m : List Space} (h : HalfOk ty P c l m) : HalfOk ty P c m l :=
  ⟨fun hc => (h.1 hc).symm, fun p hc => (h.2 p hc).symm, fun hs => (h.3 hs).symm⟩

theorem halves_refill {Q : TCls → List Space → List Space → Prop} : ∀ (ts : List Tensor) (L : List Index), HalvesHave Q ts (cutTensors ts L) →
    ∀ x ∈ refillAll ts L, Q x.cls (x.lower.list.map Index.space) (x.upper.list.map Index.space) := by
  intro ts
  induction ts with
  | nil => intro L _ x hx; simp [refillAll] at hx
  | cons t ts ih =>
    intro L hh
    rw [cutTensors] at hh
    unfold HalvesHave at hh
    rw [List.forall₂_cons] at hh
    rw [refillAll, List.forall_mem_cons]
    exact ⟨hh.1, ih _ hh.2⟩

/-- The names of a term with two sides are matched. -/
theorem matched_names {D : List Index} (hD : D.Nodup) {ts : List Tensor} {op : SqOp} {f : Index → Index} (h : TwoSided ts op) {names : List Nat}
    (hlt : ∀ n ∈ names, n < 2 * D.length) (hlen : names.length = op.size + slotCount ts) (hlook : names.map (look D) = (slotLabels ts op).map f) :
    ∃ obs : List (OBlock Nat), obs.map Prod.snd = cutBlocks ts op names ∧ Matched obs := by
  obtain ⟨obsL, h1, h2⟩ := h
  have hl : (obsL.map Prod.fst).length = (cutBlocks ts op names).length := by
    rw [List.length_map, ← List.length_map (f := Prod.snd), h1]
    unfold termBlocks cutBlocks
    rw [List.length_cons, List.length_cons, cutTensors_length, List.length_map]
  refine ⟨(obsL.map Prod.fst).zip (cutBlocks ts op names), List.map_snd_zip hl.ge, ?_⟩
  set obs := (obsL.map Prod.fst).zip (cutBlocks ts op names) with hobs
  have e1 : obs.map Prod.fst = obsL.map Prod.fst := List.map_fst_zip hl.le
  have e2 : obs.map Prod.snd = cutBlocks ts op names := List.map_snd_zip hl.ge
  have e : obs.map (mapOBlock (look D)) = obsL.map (mapOBlock f) := by
    apply list_prod_ext
    · rw [List.map_map, List.map_map]
      exact e1
    · rw [map_snd_map, map_snd_map, e2, h1, ← cutBlocks_map, hlook, cutBlocks_map, cutBlocks_slotLabels]
  have hp : ((sideA obs).map (look D)).Perm ((sideB obs).map (look D)) := by
    rw [← sideA_map, ← sideB_map, e, sideA_map, sideB_map]
    exact h2.map f
  have hmem : ∀ n ∈ sideA obs ++ sideB obs, n < 2 * D.length := by
    intro n hn
    have := (sides_perm obs).mem_iff.1 hn
    rw [e2, flat_cutBlocks _ _ _ hlen] at this
    exact hlt n this
  have hidx : ∀ l : List Nat, (∀ n ∈ l, n < 2 * D.length) → (l.map (look D)).map D.idxOf = l.map (· / 2) := by
    intro l hl
    rw [List.map_map]
    refine List.map_congr_left fun n hn => ?_
    have := hl n hn
    rw [Function.comp_apply, look_of_lt (by omega), hD.idxOf_getElem]
  have := hp.map D.idxOf
  rw [hidx _ fun n hn => hmem n (List.mem_append_left _ hn), hidx _ fun n hn => hmem n (List.mem_append_right _ hn)] at this
  exact this

theorem bind_ok_of {α β : Type} {x : Except PyErr α} {a : α} {g : α → Except PyErr β} (h : x = .ok a) : (x >>= g) = g a := by
  rw [h]; rfl

/-- What follows simplification succeeds. -/
theorem Term.sympy_total {ty : IType} (hanti : ty.isAntisym = true) {canon : List Nat → List (Nat × Nat) → List SlotGroup → Option (List Nat)}
    (hcanon : CanonContract canon) {s : Term} (hermitian : Bool) (hs : labelsOf s.tensors s.sqOp ⊆ s.indicesSet) (h : SoundTermOf ty s.tensors s.sqOp)
    (hkind : ∀ x ∈ s.tensors, ∀ y ∈ s.tensors, x.name = y.name → x.cls = y.cls) :
    ∃ names v gc op ts, slotNames (dictFind s.minimalIndices) (fun m => 2 * (sortedDummies s.minimalIndices).idxOf m)
        (slotLabels s.tensors s.sqOp) = .ok names ∧ bsgsList s.tensors s.sqOp hermitian = .ok v ∧
      (names ++ [names.length, names.length + 1]).Perm (List.range (names ++ [names.length, names.length + 1]).length) ∧
      canon (names ++ [names.length, names.length + 1]) (dummyRanges 0 (spaceGroups (sortedDummies s.minimalIndices))) v = some gc ∧
      rebuildOp (sortedDummies s.minimalIndices) s.sqOp gc = .ok op ∧
      rebuildTensors (sortedDummies s.minimalIndices) s.tensors (gc.drop s.sqOp.size) = .ok ts ∧
      ∀ c, ∃ r, Term.make ts op c = .ok r ∧ SoundTermOf ty r.tensors r.sqOp ∧ ((∀ x ∈ s.tensors, LowTensor x) → ∀ x ∈ r.tensors, LowTensor x) ∧
        ((∃ x ∈ s.tensors, x.isDensity = false) → ∃ x ∈ r.tensors, x.isDensity = false) := by
  set D := sortedDummies s.minimalIndices with hDdef
  set f := dictFun s.minimalIndices with hf
  obtain ⟨hD, hDm⟩ := sortedDummies_spec hs
  rw [← hDdef] at hD hDm
  obtain ⟨next, hm, hkeys⟩ := minimalIndices_spec s hs
  have hlab : ∀ i ∈ slotLabels s.tensors s.sqOp, i ∈ s.minimalIndices.map Prod.fst := by
    intro i hi
    rw [hkeys, mem_labelsOf]
    exact (slotLabels_perm _ _).mem_iff.1 hi
  obtain ⟨names, hnames⟩ := slotNames_total (slotLabels s.tensors s.sqOp) (fun m => 2 * D.idxOf m)
    fun i hi => ⟨_, (dictFind_ok hm.keys (hlab i hi)).1⟩
  have hinj : ∀ i ∈ slotLabels s.tensors s.sqOp, ∀ j ∈ slotLabels s.tensors s.sqOp, f i = f j → i = j :=
    fun i hi j hj e => hm.injOn (hlab i hi) (hlab j hj) e
  have htwo : ∀ m ∈ (slotLabels s.tensors s.sqOp).map f, ((slotLabels s.tensors s.sqOp).map f).count m = 2 := by
    intro m hm'
    obtain ⟨i, hi, rfl⟩ := List.mem_map.1 hm'
    rw [count_map_injOn hinj hi, (slotLabels_perm _ _).count_eq]
    exact h.two i ((slotLabels_perm _ _).mem_iff.1 hi)
  have hperm := slotNames_perm (realizes_dictFind _) hD hDm htwo hnames
  have hN : names.length = 2 * D.length := by rw [hperm.length_eq, List.length_range]
  have hlen := (slotNames_spec (realizes_dictFind _) _ _ _ hnames).1
  rw [slotLabels_length] at hlen
  have hrange0 : ∀ n ∈ names, n < 2 * D.length := fun n hn => List.mem_range.1 (hperm.mem_iff.1 hn)
  have hlook := slotNames_look (realizes_dictFind _) hD hDm hnames (hperm.nodup_iff.2 List.nodup_range) hrange0
  obtain ⟨v, hv⟩ := bsgsList_total hanti h.tensor h.upper h.bal hermitian
  have hpm : (names ++ [names.length, names.length + 1]).Perm (List.range (names ++ [names.length, names.length + 1]).length) := by
    rw [List.length_append, show names.length + [names.length, names.length + 1].length = names.length + 1 + 1 from rfl, List.range_succ,
      List.range_succ, List.append_assoc]
    rw [← hN] at hperm
    exact hperm.append_right _
  have hty : ∀ t ∈ s.tensors, t.upper.ty.isAntisym = true := fun t ht => by rw [(h.tensor t ht).upper]; exact hanti
  have hop : s.sqOp.upper.ty.isAntisym = true := by rw [h.upper]; exact hanti
  obtain ⟨obs, hobs, hmat⟩ := matched_names hD h.sided hrange0 hlen hlook
  cases hg : canon (names ++ [names.length, names.length + 1]) (dummyRanges 0 (spaceGroups D)) v with
  | none => exact absurd ((hcanon.zero _ _ _).1 hg) (not_own_negative hv hty hop h.bal hlen hperm hobs hmat)
  | some gc =>
  obtain ⟨names', flip, hgc, hl', hr', hsigned⟩ := symSteps_signed hv hty hop h.bal hlen hperm hN.ge (by omega) (by omega) (hcanon.reach _ _ _ _ hg)
  obtain ⟨names'', flip', hgc', -, -, hhalf⟩ := symSteps_halves (Q := HalfOk ty (∀ x ∈ s.tensors, LowTensor x))
    (fun c l l' m m' hl hm h => h.perm hl hm) (fun c l m h => h.swap) hv hD hty hop h.bal hkind hlen hrange0 (hcanon.reach _ _ _ _ hg)
  obtain rfl : names'' = names' := by
    have : names' ++ (if flip then [names.length + 1, names.length] else [names.length, names.length + 1]) =
        names'' ++ (if flip' then [names.length + 1, names.length] else [names.length, names.length + 1]) := hgc.symm.trans hgc'
    exact (List.append_inj' this (by cases flip <;> cases flip' <;> rfl)).1.symm
  clear hgc'
  obtain ⟨obs', hobs', hmat', -⟩ := hsigned _ ⟨obs, hobs, hmat, rfl⟩
  have hrange : ∀ n ∈ names'', n < 2 * D.length := fun n hn => List.mem_range.1 (hr'.mem_iff.1 hn)
  obtain ⟨hA, hB⟩ := matched_nodup hD hmat' (by rw [hobs', flat_cutBlocks _ _ _ hl']; exact hr')
  have hnd : ∀ b ∈ cutBlocks s.tensors s.sqOp (names''.map (look D)), b.1.Nodup ∧ b.2.Nodup := by
    intro b hb
    refine half_nodup (obs := obs'.map (mapOBlock (look D))) (by rw [sideA_map]; exact hA) (by rw [sideB_map]; exact hB) ?_
    rw [map_snd_map, hobs', ← cutBlocks_map]; exact hb
  have hsplit : names'' = names''.take s.sqOp.size ++ names''.drop s.sqOp.size := (List.take_append_drop _ _).symm
  have htk : (names''.take s.sqOp.size).length = s.sqOp.size := by simp; omega
  have hdl : (names''.drop s.sqOp.size).length = slotCount s.tensors := by simp; omega
  have hDb : ty = .spinOrbital → ∀ i ∈ D, i.isBeta = false := by
    intro hso m hm'
    obtain ⟨i, hi, rfl⟩ := List.mem_map.1 ((hDm m).1 hm')
    have := hm.space _ (dictFind_ok hm.keys (hlab i hi)).2
    unfold Index.isBeta
    rw [this]
    exact h.beta hso i ((slotLabels_perm _ _).mem_iff.1 hi)
  obtain ⟨junk, hjunk⟩ : ∃ junk, gc = names'' ++ junk := ⟨_, hgc⟩
  subst hjunk
  have e1 : refillAll s.tensors (((names'' ++ junk).drop s.sqOp.size).map (look D)) =
      refillAll s.tensors ((names''.map (look D)).drop s.sqOp.size) := by
    rw [List.drop_append_of_le_length (by omega), List.map_append]
    have := refillAll_append s.tensors [] ((names''.drop s.sqOp.size).map (look D)) (junk.map (look D)) (by simpa using hdl)
    rw [List.append_nil] at this
    rw [this, refillAll, List.append_nil, List.map_drop]
  have e2 : s.sqOp.refill ((names'' ++ junk).map (look D)) = s.sqOp.refill (names''.map (look D)) := by
    have e : names'' ++ junk = names''.take s.sqOp.size ++ (names''.drop s.sqOp.size ++ junk) := by
      rw [← List.append_assoc, List.take_append_drop]
    have e' : names''.map (look D) = (names''.take s.sqOp.size).map (look D) ++ (names''.drop s.sqOp.size).map (look D) := by
      rw [← List.map_append, List.take_append_drop]
    rw [e, List.map_append, s.sqOp.refill_append _ _ (by simpa using htk), e', s.sqOp.refill_append _ _ (by simpa using htk)]
  have e3 : cutTensors s.tensors (((names'' ++ junk).drop s.sqOp.size).map (look D)) = cutTensors s.tensors ((names''.map (look D)).drop s.sqOp.size) := by
    rw [List.drop_append_of_le_length (by omega), List.map_append]
    have := cutTensors_append s.tensors [] ((names''.drop s.sqOp.size).map (look D)) (junk.map (look D)) (by simpa using hdl)
    rw [List.append_nil] at this
    rw [this, cutTensors, List.append_nil, List.map_drop]
  have hstart : HalvesHave (HalfOk ty (∀ x ∈ s.tensors, LowTensor x)) s.tensors (cutTensors s.tensors ((names.map (look D)).drop s.sqOp.size)) := by
    have hc : cutTensors s.tensors ((names.map (look D)).drop s.sqOp.size) = (s.tensors.map fun t => pairBlock t.pair).map (mapBlock f) := by
      have := cutBlocks_map f s.tensors s.sqOp (slotLabels s.tensors s.sqOp)
      rw [cutBlocks_slotLabels, ← hlook] at this
      exact (List.cons.inj this).2
    rw [hc]
    unfold HalvesHave
    rw [List.map_map, List.forall₂_map_right_iff, List.forall₂_same]
    intro t ht
    have hsp : ∀ l : List Index, (∀ i ∈ l, i ∈ t.pair.indices) → (l.map f).map Index.space = l.map Index.space := by
      intro l hl
      rw [List.map_map]
      refine List.map_congr_left fun i hi => ?_
      exact hm.space _ (dictFind_ok hm.keys (hlab i ((slotLabels_perm _ _).mem_iff.2 (mem_labelList.2 (Or.inr ⟨t, ht, hl i hi⟩))))).2
    show HalfOk _ _ t.cls ((t.lower.list.map f).map Index.space) ((t.upper.list.map f).map Index.space)
    rw [hsp _ fun i hi => List.mem_append_right _ hi, hsp _ fun i hi => List.mem_append_left _ hi]
    refine ⟨fun hc => ((h.tensor t ht).half hc).symm, fun p hc => ⟨fun s hs => ?_, fun s hs => ?_⟩, fun hso => ?_⟩
    · obtain ⟨i, hi, rfl⟩ := List.mem_map.1 hs
      exact p t ht hc i (List.mem_append_right _ hi)
    · obtain ⟨i, hi, rfl⟩ := List.mem_map.1 hs
      exact p t ht hc i (List.mem_append_left _ hi)
    · rw [List.countP_map, List.countP_map]
      exact ((h.tensor t ht).spin hso).symm
  have hhalves := halves_refill _ _ (hhalf hstart)
  have hsound : ∀ x ∈ refillAll s.tensors ((names''.map (look D)).drop s.sqOp.size), SoundTensorOf ty x :=
    soundTensor_refill s.tensors _ h.tensor (by rw [List.length_drop, List.length_map]; omega)
      (List.Forall₂.imp (fun _ _ h => ⟨h.cluster, h.spin⟩) (hhalf hstart))
  have hlow : (∀ x ∈ s.tensors, LowTensor x) → ∀ x ∈ refillAll s.tensors ((names''.map (look D)).drop s.sqOp.size), LowTensor x := by
    intro p x hx hc i hi
    rcases List.mem_append.1 hi with hi | hi
    · exact ((hhalves x hx).low p hc).2 _ (List.mem_map_of_mem hi)
    · exact ((hhalves x hx).low p hc).1 _ (List.mem_map_of_mem hi)
  have hndT : ∀ b ∈ cutTensors s.tensors ((names''.map (look D)).drop s.sqOp.size), b.1.Nodup ∧ b.2.Nodup :=
    fun b hb => hnd b (List.mem_cons_of_mem _ hb)
  have hndO := hnd _ (List.mem_cons_self ..)
  have hops : rebuildOp D s.sqOp (names'' ++ junk) = .ok (s.sqOp.refill (names''.map (look D))) := by
    rw [← e2]
    refine rebuildOp_total h.upper ?_ hDb ?_
    · intro n hn
      rw [List.take_append_of_le_length (by omega)] at hn
      exact hrange n (List.mem_of_mem_take hn)
    · have hsz : s.sqOp.size = s.sqOp.nUpper + s.sqOp.nLower := rfl
      rw [List.map_append, List.take_append_of_le_length (by rw [List.length_map]; omega), List.drop_append_of_le_length (by rw [List.length_map]; omega),
        List.take_append_of_le_length (by rw [List.length_drop, List.length_map]; omega)]
      exact hndO
  have htss : rebuildTensors D s.tensors ((names'' ++ junk).drop s.sqOp.size) = .ok (refillAll s.tensors ((names''.map (look D)).drop s.sqOp.size)) := by
    rw [← e1]
    refine rebuildTensors_total _ _ (fun t ht => (h.tensor t ht).upper) ?_ hDb (by rw [e3]; exact hndT) (by rw [e1]; exact hsound)
    intro n hn
    rw [List.drop_append_of_le_length (by omega), List.take_append_of_le_length (by omega)] at hn
    exact hrange n (List.mem_of_mem_drop (List.mem_of_mem_take hn))
  refine ⟨names, v, names'' ++ junk, _, _, hnames, hv, hpm, hg, hops, htss, fun c => ?_⟩
  -- the labels of the result
  have hLl : (labelList (refillAll s.tensors ((names''.map (look D)).drop s.sqOp.size)) (s.sqOp.refill (names''.map (look D)))).Perm (names''.map (look D)) := by
    refine (slotLabels_perm _ _).symm.trans ?_
    have e : names''.map (look D) = (names''.take s.sqOp.size).map (look D) ++ (names''.drop s.sqOp.size).map (look D) := by
      rw [← List.map_append, List.take_append_drop]
    have hl1 : ((names''.take s.sqOp.size).map (look D)).length = s.sqOp.size := by simpa using htk
    rw [e, s.sqOp.refill_append _ _ hl1, List.drop_left' hl1, slotLabels_refill _ _ _ _ hl1 (by simpa using hdl)]
  have hpp : (names''.map (look D)).Perm (names.map (look D)) := (hr'.trans hperm.symm).map _
  have hcount : ∀ i ∈ labelList (refillAll s.tensors ((names''.map (look D)).drop s.sqOp.size)) (s.sqOp.refill (names''.map (look D))),
      (labelList (refillAll s.tensors ((names''.map (look D)).drop s.sqOp.size)) (s.sqOp.refill (names''.map (look D)))).count i = 2 := by
    intro i hi
    rw [(hLl.trans hpp).mem_iff, hlook] at hi
    rw [(hLl.trans hpp).count_eq, hlook]
    exact htwo i hi
  have hS : SoundTermOf ty (refillAll s.tensors ((names''.map (look D)).drop s.sqOp.size)) (s.sqOp.refill (names''.map (look D))) := by
    have hsz : s.sqOp.size = s.sqOp.nUpper + s.sqOp.nLower := rfl
    have hb' : s.sqOp.nUpper = s.sqOp.nLower := h.bal
    refine ⟨hsound, h.upper, h.upper, ?_, ?_, hcount, ?_⟩
    · show (((names''.map (look D)).drop s.sqOp.nLower).take s.sqOp.nUpper).length = ((names''.map (look D)).take s.sqOp.nLower).length
      rw [List.length_take, List.length_take, List.length_drop, List.length_map]; omega
    · intro hso i hi
      rw [hLl.mem_iff] at hi
      obtain ⟨n, hn, rfl⟩ := List.mem_map.1 hi
      have := hrange n hn
      rw [look_of_lt (by omega)]
      exact hDb hso _ (List.getElem_mem _)
    · refine ⟨obs'.map (mapOBlock (look D)), ?_, ?_⟩
      · rw [map_snd_map, hobs', ← cutBlocks_map, termBlocks_refill]
      · rw [sideA_map, sideB_map]
        have : ∀ l : List Nat, l.map (look D) = (l.map (· / 2)).map fun d => D.getD d ⟨⟨.g, false⟩, 0⟩ := by
          intro l; rw [List.map_map]; rfl
        rw [this, this]
        exact hmat'.map _
  refine ⟨_, Term.make_ok.2 ⟨?_, fun i hi _ => hcount i hi, ?_, rfl⟩, hS.perm (sortTensors_perm _).symm,
    fun p x hx => hlow p x ((sortTensors_perm _).mem_iff.1 hx), fun hd => ?_⟩
  rotate_left 2
  · obtain ⟨y, hy, hyd⟩ := refillAll_density ((names''.map (look D)).drop s.sqOp.size) hd
    exact ⟨y, (sortTensors_perm _).mem_iff.2 hy, hyd⟩
  · intro x hx
    rw [(hsound x hx).upper]
    exact h.upper.symm
  · intro i hi
    have hi' : i ∈ labelList (refillAll s.tensors ((names''.map (look D)).drop s.sqOp.size)) (s.sqOp.refill (names''.map (look D))) := by
      rw [mem_diagonalOf] at hi
      rw [mem_labelList]
      rcases hi with hi | ⟨x, hx, hi⟩
      · exact Or.inl (List.mem_append_left _ hi.1)
      · exact Or.inr ⟨x, hx, List.mem_append_left _ hi.1⟩
    rw [hcount i hi']

/-- `canonicalize_sympy` succeeds if simplification gives a term with two sides. -/
theorem Term.canonicalizeSympy_total {ty : IType} (hanti : ty.isAntisym = true)
    {canon : List Nat → List (Nat × Nat) → List SlotGroup → Option (List Nat)} (hcanon : CanonContract canon) {ord : SetOrder} {t s : Term} {core removeActive : Bool} (hermitian : Bool) (hst : t.simplify ord core removeActive = .ok s)
    (hs : labelsOf s.tensors s.sqOp ⊆ s.indicesSet) (h : s.isVoid = false → SoundTermOf ty s.tensors s.sqOp)
    (hkind : ∀ x ∈ s.tensors, ∀ y ∈ s.tensors, x.name = y.name → x.cls = y.cls) :
    ∃ r, t.canonicalizeSympy canon ord core removeActive hermitian = .ok r ∧ (r.coeff ≠ 0 → SoundTermOf ty r.tensors r.sqOp) ∧
      ((s.isVoid = false → ∀ x ∈ s.tensors, LowTensor x) → ∀ x ∈ r.tensors, LowTensor x) ∧
      ((s.isVoid = false → ∃ x ∈ s.tensors, x.isDensity = false) → r.coeff ≠ 0 → ∃ x ∈ r.tensors, x.isDensity = false) := by
  unfold Term.canonicalizeSympy
  rw [bind_ok_of hst]
  by_cases hv : s.isVoid = true
  · rw [if_pos hv]
    unfold Term.void
    refine ⟨_, Term.make_ok.2 ⟨by simp, ?_, ?_, rfl⟩, ?_, ?_, ?_⟩
    · intro i hi
      rw [mem_labelList] at hi
      rcases hi with hi | ⟨x, hx, -⟩
      · exact absurd hi (by simp [IndicesPair.void, IndicesPair.indices])
      · simp at hx
    · intro i hi
      rw [mem_diagonalOf] at hi
      rcases hi with hi | ⟨x, hx, -⟩
      · exact absurd hi.1 (by simp [IndicesPair.void])
      · simp at hx
    · intro h0
      exact absurd rfl h0
    · intro _ x hx
      exact absurd ((sortTensors_perm _).mem_iff.1 hx) (by simp)
    · intro _ h0
      exact absurd rfl h0
  · rw [if_neg hv]
    obtain ⟨names, v, gc, op, ts, h1, h2, h3, h4, h5, h6, h7⟩ := Term.sympy_total hanti hcanon hermitian hs (h (by simpa using hv)) hkind
    simp only []
    rw [bind_ok_of h1]
    rw [bind_ok_of h2, if_pos h3, h4]
    dsimp only
    rw [bind_ok_of h5, bind_ok_of h6]
    obtain ⟨r, hr, hS, hlow, hden⟩ := h7 ((if (names ++ [names.length, names.length + 1]).getLastD 0 ≠ gc.getLastD 0 then -1 else 1) * s.coeff)
    exact ⟨r, hr, fun _ => hS, fun p => hlow (p (by simpa using hv)), fun p _ => hden (p (by simpa using hv))⟩

end Dsrg
