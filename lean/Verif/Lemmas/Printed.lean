import Verif.Lemmas.DistinctTerms
import Verif.Lemmas.LibraryNice
import Verif.Props.Total

/-!
The terms that contractions and commutators return can be written as programs.
-/

namespace Dsrg

/-! ### Hole densities -/

theorem canonicalizeRow_noHole {m : Machine} {terms : List Term} (h : ∀ t ∈ terms, ∀ x ∈ t.tensors, x.cls ≠ .hole) {c : List Tensor} {row : Row}
    (hrow : row ∈ resultRows (productOps terms) true c) {k : ℚ} {hermitian : Bool} {r : Term}
    (hr : canonicalizeRow m (productTensors terms) k hermitian row = .ok r) : ∀ x ∈ r.tensors, x.cls ≠ .hole := by
  unfold canonicalizeRow at hr
  obtain ⟨t, ht, hr⟩ := bind_ok hr
  have hw := Term.wf_of_make ht
  obtain ⟨-, -, -, rfl⟩ := Term.make_ok.1 ht
  intro x hx
  obtain ⟨⟨y, hy, e⟩, -⟩ := (Term.sympy_origin hw.set_sub hr).1 x hx
  rw [(kind_eq.1 e).1]
  rcases List.mem_append.1 ((sortTensors_perm _).mem_iff.1 hy) with hy | hy
  · obtain ⟨t, ht, hy⟩ := List.mem_flatMap.1 hy
    exact h t ht y hy
  · obtain ⟨z, -, -, -, hz⟩ := row_pairs row hrow y hy
    exact hz rfl

theorem ContractRun.noHole {m : Machine} {o : Options} (ho : o.expandHole = true) {terms : List Term}
    (h : ∀ t ∈ terms, GoodTerm t) (hh : ∀ t ∈ terms, ∀ x ∈ t.tensors, x.cls ≠ .hole) (hd : terms.Pairwise DisjointLabels) {scale : ℚ}
    {out : List Term} (hr : ContractRun m o terms scale out) : ∀ t ∈ out, ∀ x ∈ t.tensors, x.cls ≠ .hole := by
  refine ContractRun.all (P := fun t => ∀ x ∈ t.tensors, x.cls ≠ .hole) (fun t c ht => ht) h hd ?_ ?_ hr
  · intro op c t ht x hx
    obtain ⟨-, -, -, rfl⟩ := Term.make_ok.1 ht
    obtain ⟨t, ht, hx⟩ := List.mem_flatMap.1 ((sortTensors_perm _).mem_iff.1 hx)
    exact hh t ht x hx
  · intro c row k r hA hrow hr
    rw [ho] at hrow
    exact canonicalizeRow_noHole hh hrow hr

theorem CommutatorRun.noHole {m : Machine} {o : Options} (ho : o.expandHole = true) {a b : Term} (ha : GoodTerm a) (hb : GoodTerm b)
    (hha : ∀ x ∈ a.tensors, x.cls ≠ .hole) (hhb : ∀ x ∈ b.tensors, x.cls ≠ .hole) (hd : DisjointLabels a b) {scale : ℚ}
    {out : List Term} (hr : CommutatorRun m o a b scale out) : ∀ t ∈ out, ∀ x ∈ t.tensors, x.cls ≠ .hole := by
  refine CommutatorRun.all (P := fun t => ∀ x ∈ t.tensors, x.cls ≠ .hole) (fun t c ht => ht) ?_ ?_ hr
  · intro out h
    exact ContractRun.noHole ho (by simpa using ⟨ha, hb⟩) (by simpa using ⟨hha, hhb⟩) (by simpa using hd) h
  · intro out h
    exact ContractRun.noHole ho (by simpa using ⟨hb, ha⟩) (by simpa using ⟨hhb, hha⟩) (List.pairwise_pair.2 (Disjoint.symm hd)) h

/-- Without hole densities the factors are the Hamiltonian, amplitudes and cumulants, and no factor is read from a target array. -/
theorem NiceTerm.factor {t : Term} (h : NiceTerm t) (hh : ∀ x ∈ t.tensors, x.cls ≠ .hole) {x : Tensor} (hx : x ∈ t.tensors) :
    ((x.cls = .hamiltonian ∧ x.name = ['H']) ∨ (x.cls = .cluster ∧ x.name = ['T']) ∨ (x.cls = .cumulant ∧ x.name = ['L'])) ∧
      x.upper.list.length = x.lower.list.length ∧ x.arrayName = x.name ++ natStr x.upper.list.length := by
  have hl := (h.2.sound.tensor x hx).len
  refine ⟨?_, hl, ?_⟩
  · rcases h.1.kind x hx with ⟨hk | hk | hk, hn, -⟩ | ⟨hk, hn, -⟩ | ⟨hk, hn, -⟩
    · exact Or.inr (Or.inr ⟨hk, by rw [hn, hk]; rfl⟩)
    · exact absurd hk (hh x hx)
    · exact absurd (Or.inl hk) (h.1.tidy.noDelta x hx)
    · exact Or.inl ⟨hk, hn⟩
    · exact Or.inr (Or.inl ⟨hk, hn⟩)
  · unfold Tensor.arrayName
    rw [if_pos (show x.upper.size = x.lower.size from hl)]; rfl

/-! ### The expansions -/

/-- A term whose program computes it. -/
structure Writable (t : Term) : Prop where
  nice : NiceTerm t
  distinct : Distinct t
  noHole : ∀ x ∈ t.tensors, x.cls ≠ .hole

theorem LibraryTerm.writable {m : Machine} (hcanon : CanonContract m.canon) (hord : m.ord.Lawful) (hcpu : 1 ≤ m.cpus) {t : Term} (h : LibraryTerm m t)
    (hh : ∀ x ∈ t.tensors, x.cls ≠ .hole) : Writable t := ⟨h.nice hcanon hord hcpu, h.distinct hcanon hord hcpu, hh⟩

theorem writable_combine {l out : List Term} (h : ∀ t ∈ l, Writable t) (hc : combineTerms l = .ok out) : ∀ t ∈ out, Writable t := fun t ht =>
  ⟨nice_combine (fun t ht => (h t ht).nice) hc t ht, combine_all (fun _ c h => h.coeff c) (fun t ht => (h t ht).distinct) hc t ht,
    combine_all (P := fun t => ∀ x ∈ t.tensors, x.cls ≠ .hole) (fun _ _ h => h) (fun t ht => (h t ht).noHole) hc t ht⟩

theorem Writable.fromTerm {t t' : Term} (h : Writable t) (hc : t.fromTerm false false = .ok t') : Writable t' := by
  obtain ⟨h1, h2, -⟩ := fromTerm_copy hc
  refine ⟨⟨h.nice.1.congr h1 h2, h.nice.2.congr h1 h2⟩, ⟨?_, fun x hx => h.distinct.2 x (h1.mem_iff.1 hx)⟩, fun x hx => h.noHole x (h1.mem_iff.1 hx)⟩
  unfold Term.fromTerm at hc
  obtain ⟨op, -, hc⟩ := bind_ok hc
  exact ⟨_, _, _, hc⟩

theorem writable_copies {l out : List Term} (h : ∀ t ∈ l, Writable t) (hc : (l.mapM fun t => t.fromTerm false false) = .ok out) :
    ∀ t ∈ out, Writable t := by
  intro x hx
  obtain ⟨t, ht, e⟩ := forall₂_mem_right (forall₂_of_mapM hc) hx
  exact (h t ht).fromTerm e

theorem ContractRun.writable {m : Machine} (hcanon : CanonContract m.canon) (hord : m.ord.Lawful) (hcpu : 1 ≤ m.cpus) {o : Options} (hn : 1 ≤ o.nProcess)
    (ho : o.expandHole = true) {terms : List Term} (hne : terms ≠ []) (h : ∀ t ∈ terms, Writable t) (hd : terms.Pairwise DisjointLabels) {scale : ℚ}
    {out : List Term} (hr : ContractRun m o terms scale out) : ∀ t ∈ out, Writable t := by
  have hg : ∀ t ∈ terms, GoodTerm t := fun t ht => (h t ht).nice.1
  exact fun t ht => ⟨(ContractRun.fine hcanon hord hcpu hn hne (fun t ht => (h t ht).nice) hd scale).2.2 out hr t ht,
    ContractRun.distinct hcanon hord hg (fun t ht => (h t ht).distinct.2) hd hr t ht,
    ContractRun.noHole ho hg (fun t ht => (h t ht).noHole) hd hr t ht⟩

theorem CommutatorRun.writable {m : Machine} (hcanon : CanonContract m.canon) (hord : m.ord.Lawful) (hcpu : 1 ≤ m.cpus) {o : Options} (hn : 1 ≤ o.nProcess)
    (ho : o.expandHole = true) {a b : Term} (ha : Writable a) (hb : Writable b) (hd : DisjointLabels a b) {scale : ℚ}
    {out : List Term} (hr : CommutatorRun m o a b scale out) : ∀ t ∈ out, Writable t := fun t ht =>
  ⟨(CommutatorRun.fine hcanon hord hcpu hn ha.nice hb.nice hd scale).2.2 out hr t ht,
    CommutatorRun.distinct hcanon hord ha.nice.1 hb.nice.1 ha.distinct.2 hb.distinct.2 hd hr t ht,
    CommutatorRun.noHole ho ha.nice.1 hb.nice.1 ha.noHole hb.noHole hd hr t ht⟩

theorem CommutatorsRun.writable {m : Machine} (hcanon : CanonContract m.canon) (hord : m.ord.Lawful) (hcpu : 1 ≤ m.cpus) {o : Options}
    (hn : 1 ≤ o.nProcess) (ho : o.expandHole = true) {scale : ℚ} : ∀ {pairs : List (Term × Term)} {out : List Term},
    (∀ p ∈ pairs, Writable p.1 ∧ Writable p.2 ∧ DisjointLabels p.1 p.2) → CommutatorsRun m o scale pairs out → ∀ t ∈ out, Writable t := by
  intro pairs
  induction pairs with
  | nil =>
    intro out _ h
    rw [show out = [] from h]
    simp
  | cons p pairs ih =>
    rintro out h ⟨o1, o2, h1, h2, rfl⟩ t ht
    obtain ⟨a1, a2, a3⟩ := h p (by simp)
    rcases List.mem_append.1 ht with ht | ht
    · exact CommutatorRun.writable hcanon hord hcpu hn ho a1 a2 a3 h1 t ht
    · exact ih (fun q hq => h q (by simp [hq])) h2 t ht

theorem LinearCommutatorRun.writable {m : Machine} (hcanon : CanonContract m.canon) (hord : m.ord.Lawful) (hcpu : 1 ≤ m.cpus) {o : Options}
    (hn : 1 ≤ o.nProcess) {lefts rights : List Term} (hl : ∀ t ∈ lefts, Writable t) (hr : ∀ t ∈ rights, Writable t)
    (hd : ∀ a ∈ lefts, ∀ b ∈ rights, DisjointLabels a b) {scale : ℚ} {out : List Term} (h : LinearCommutatorRun m o lefts rights scale out) :
    ∀ t ∈ out, Writable t := by
  obtain ⟨all, h1, h2⟩ := h
  refine writable_combine (CommutatorsRun.writable hcanon hord hcpu (o := { o with expandHole := true }) hn rfl ?_ h1) h2
  intro p hp
  obtain ⟨l, hl', hp⟩ := List.mem_flatMap.1 hp
  obtain ⟨r, hr', rfl⟩ := List.mem_map.1 hp
  exact ⟨hl l hl', hr r hr', hd l hl' r hr'⟩

theorem cluster_writable {k start : Nat} (hk : 1 ≤ k) {excitation : Bool} {scale : ℚ} {singleRef : Bool} {t : Term}
    (h : clusterOperator k start excitation ['T'] scale (holeSpace singleRef) (particleSpace singleRef) .spinOrbital = .ok t) : Writable t := by
  refine ⟨⟨(cluster_good h).1, cluster_live hk h⟩, cluster_distinct h, ?_⟩
  have hb1 : (holeSpace singleRef).beta = false := by cases singleRef <;> rfl
  have hb2 : (particleSpace singleRef).beta = false := by cases singleRef <;> rfl
  obtain ⟨t', x, h1, h2, h3, -⟩ := C38_cluster k start excitation ['T'] scale (holeSpace singleRef) (particleSpace singleRef) .spinOrbital
    (hb1.trans hb2.symm) fun _ => hb1
  rw [h] at h1
  injection h1 with h1
  subst h1
  rw [h2]
  intro y hy
  obtain rfl : y = x := by simpa using hy
  rw [h3]
  exact fun h => nomatch h

theorem clusterOperators_writable {levels : List Nat} (hk : ∀ k ∈ levels, 1 ≤ k) {start : Nat} {unitary singleRef : Bool} {amps : List Term}
    (h : clusterOperators levels start unitary singleRef = .ok amps) : ∀ t ∈ amps, Writable t := by
  have key : ∀ {excitation : Bool} {scale : ℚ} {l : List Term}, (levels.mapM fun k =>
      clusterOperator k start excitation ['T'] scale (holeSpace singleRef) (particleSpace singleRef) .spinOrbital) = .ok l → ∀ t ∈ l, Writable t := by
    intro excitation scale l hl t ht
    obtain ⟨k, hkl, e⟩ := forall₂_mem_right (forall₂_of_mapM hl) ht
    exact cluster_writable (hk k hkl) e
  unfold clusterOperators at h
  obtain ⟨a, ha, h⟩ := bind_ok h
  split_ifs at h
  · obtain ⟨b, hb, h⟩ := bind_ok h
    injection h with h
    subst h
    intro t ht
    rcases List.mem_append.1 ht with ht | ht
    · exact key ha t ht
    · exact key hb t ht
  · injection h with h
    subst h
    exact key ha

theorem bchStart_writable {ord : SetOrder} (hord : ord.Lawful) {start : List Term} (h : bchStart ord = .ok start) : ∀ r ∈ start, Writable r := by
  have hnice := bchStart_nice hord h
  unfold bchStart at h
  obtain ⟨a, ha, h⟩ := bind_ok h
  obtain ⟨b, hb, h⟩ := bind_ok h
  injection h with h
  subst h
  intro r hr
  have key : Distinct r ∧ ∀ x ∈ r.tensors, x.cls = .hamiltonian := by
    rcases List.mem_append.1 hr with h | h
    · exact expandedHamiltonian_distinct hord ha r h
    · exact expandedHamiltonian_distinct hord hb r h
  exact ⟨hnice r hr, key.1, fun x hx e => by rw [key.2 x hx] at e; cases e⟩

theorem BchLevels.writable {m : Machine} (hcanon : CanonContract m.canon) (hord : m.ord.Lawful) (hcpu : 1 ≤ m.cpus) {o : Options} (hn : 1 ≤ o.nProcess)
    (ho : o.expandHole = true) {levels : List Nat} (hk : ∀ k ∈ levels, 1 ≤ k) {unitary singleRef : Bool} {maxLevel : Nat} (hmax : ∀ k ∈ levels, k ≤ maxLevel) :
    ∀ {limits : List (Int × Int × Int)} {i : Nat} {pool : List Term} {calls : List (List (Term × Term))} {outs : List (List Term)},
      GoodList (i * (maxLevel * 2) + 4) pool → (∀ t ∈ pool, Writable t) →
      BchLevels m o levels unitary singleRef (maxLevel * 2) i pool limits calls outs → ∀ out ∈ outs, ∀ t ∈ out, Writable t := by
  intro limits
  induction limits with
  | nil =>
    rintro i pool calls outs _ _ ⟨-, rfl⟩
    simp
  | cons x limits ih =>
    obtain ⟨maxCu, minOpen, maxOpen⟩ := x
    rintro i pool calls outs hp hw ⟨amps, all, copies, out, pool', calls', outs', h1, h2, h3, h4, h5, h6, rfl, rfl⟩
    have hpairs := level_pairs hmax hp h1
    have hampw := clusterOperators_writable hk h1
    have hall : ∀ t ∈ all, Writable t := by
      refine CommutatorsRun.writable hcanon hord hcpu (o := { o with maxCu := maxCu, maxOpen := maxOpen, minOpen := minOpen }) hn ho ?_ h2
      intro p hpm
      have hdis := (hpairs p hpm).2.2.1
      obtain ⟨l, hl, hpm⟩ := List.mem_flatMap.1 hpm
      obtain ⟨r, hr, rfl⟩ := List.mem_map.1 hpm
      exact ⟨hw l hl, hampw r hr, hdis⟩
    have hout := writable_combine (writable_copies hall h3) h4
    have g3 := (((CommutatorsRun.good hcanon hord hpairs h2).copies h3).combine h4).copies h5
    rw [show i * (maxLevel * 2) + 4 + maxLevel * 2 = (i + 1) * (maxLevel * 2) + 4 by ring] at g3
    intro l hl
    rcases List.mem_cons.1 hl with rfl | hl
    · exact hout
    · exact ih g3 (writable_copies hout h5) h6 l hl

theorem BchRun.writable {m : Machine} (hcanon : CanonContract m.canon) (hord : m.ord.Lawful) (hcpu : 1 ≤ m.cpus) {o : Options} (hn : 1 ≤ o.nProcess)
    (ho : o.expandHole = true) {levels : List Nat} (hk : ∀ k ∈ levels, 1 ≤ k) {unitary singleRef : Bool} {limits : List (Int × Int × Int)}
    {calls : List (List (Term × Term))} {outs : List (List Term)} (h : BchRun m o levels unitary singleRef limits calls outs) :
    ∀ out ∈ outs, ∀ t ∈ out, Writable t := by
  obtain ⟨maxLevel, start, rest, h1, h2, h3, rfl⟩ := h
  have hs := bchStart_writable hord h2
  intro out ho'
  rcases List.mem_cons.1 ho' with rfl | ho'
  · exact hs
  · exact BchLevels.writable hcanon hord hcpu hn ho hk (fun k hk => (List.max?_eq_some_iff.1 h1).2 k hk) (by simpa using (bchStart_good hord h2).1) hs h3 out ho'

theorem RecursiveRun.writable {m : Machine} (hcanon : CanonContract m.canon) (hord : m.ord.Lawful) (hcpu : 1 ≤ m.cpus) {o : Options} (hn : 1 ≤ o.nProcess)
    (ho : o.expandHole = true) : ∀ {levels : List (Term × Int × Int × Int)} {pool : List Term} {N : Nat} {outs : List (List Term)}, GoodList N pool →
      (∀ t ∈ pool, Writable t) → (∀ l ∈ levels, Writable l.1) →
      (∀ pre l post, levels = pre ++ l :: post → ∀ i ∈ labelsOf l.1.tensors l.1.sqOp,
        N + (pre.map fun l => (labelsOf l.1.tensors l.1.sqOp).card).sum ≤ i.number) →
      RecursiveRun m o pool levels outs → ∀ out ∈ outs, ∀ t ∈ out, Writable t := by
  intro levels
  induction levels with
  | nil =>
    rintro pool N outs _ _ _ _ h
    rw [show outs = [] from h]
    simp
  | cons x levels ih =>
    obtain ⟨right, maxCu, minOpen, maxOpen⟩ := x
    rintro pool N outs hp hw hl hnum ⟨all, out, outs', h1, h2, h3, rfl⟩
    have hr : Writable right := hl (right, maxCu, minOpen, maxOpen) (by simp)
    have hd : ∀ l ∈ pool, DisjointLabels l right := fun l hlm => disjointLabels_of_numbers (hp l hlm).2.number fun i hi => by
      simpa using hnum [] (right, maxCu, minOpen, maxOpen) levels rfl i hi
    have hpair : ∀ p ∈ pool.map fun l => (l, right), GoodTerm p.1 ∧ GoodTerm p.2 ∧ DisjointLabels p.1 p.2 ∧
        (labelsOf p.1.tensors p.1.sqOp).card + (labelsOf p.2.tensors p.2.sqOp).card ≤ N + (labelsOf right.tensors right.sqOp).card := by
      intro p hpm
      obtain ⟨l, hlm, rfl⟩ := List.mem_map.1 hpm
      have := (hp l hlm).2.card
      exact ⟨(hp l hlm).1, hr.nice.1, hd l hlm, by simpa using this⟩
    have hall : ∀ t ∈ all, Writable t := by
      refine CommutatorsRun.writable hcanon hord hcpu (o := { o with maxCu := maxCu, maxOpen := maxOpen, minOpen := minOpen }) hn ho ?_ h1
      intro p hpm
      obtain ⟨l, hlm, rfl⟩ := List.mem_map.1 hpm
      exact ⟨hw l hlm, hr, hd l hlm⟩
    have hout := writable_combine hall h2
    intro l hl'
    rcases List.mem_cons.1 hl' with rfl | hl'
    · exact hout
    · refine ih ((CommutatorsRun.good hcanon hord hpair h1).combine h2) hout (fun l hl' => hl l (by simp [hl'])) ?_ h3 l hl'
      intro pre l post e i hi
      have := hnum ((right, maxCu, minOpen, maxOpen) :: pre) l post (by rw [e]; rfl) i hi
      simp only [List.map_cons, List.sum_cons] at this
      omega

theorem hamiltonian_writable {k start : Nat} (hk : 1 ≤ k) {t : Term} (h : hamiltonianOperator k start .spinOrbital = .ok t) : Writable t := by
  refine ⟨⟨(hamiltonian_good_from h).1, hamiltonian_live hk h⟩, hamiltonian_distinct h, ?_⟩
  obtain ⟨t', x, h1, h2, h3, -⟩ := C38_hamiltonian k start .spinOrbital
  rw [h] at h1
  injection h1 with h1
  subst h1
  rw [h2]
  intro y hy
  obtain rfl : y = x := by simpa using hy
  rw [h3]
  exact fun h => nomatch h

theorem nestedFactors_writable {singleRef : Bool} : ∀ {names : List OpName} {start : Nat} {terms : List Term}, (∀ x ∈ names, 1 ≤ x.bodies) →
    nestedFactors singleRef start names = .ok terms → ∀ t ∈ terms, Writable t := by
  intro names
  induction names with
  | nil =>
    intro start terms _ h
    injection h with h
    subst h
    simp
  | cons x names ih =>
    intro start terms hb h
    have hx := hb x (by simp)
    have hr : ∀ y ∈ names, 1 ≤ y.bodies := fun y hy => hb y (by simp [hy])
    cases x with
    | H k =>
      unfold nestedFactors at h
      obtain ⟨t, ht, h⟩ := bind_ok h
      obtain ⟨ts, hts, h⟩ := bind_ok h
      injection h with h
      subst h
      intro y hy
      rcases List.mem_cons.1 hy with rfl | hy
      · exact hamiltonian_writable hx ht
      · exact ih hr hts y hy
    | T k =>
      unfold nestedFactors at h
      obtain ⟨t, ht, h⟩ := bind_ok h
      obtain ⟨ts, hts, h⟩ := bind_ok h
      injection h with h
      subst h
      intro y hy
      rcases List.mem_cons.1 hy with rfl | hy
      · exact cluster_writable hx ht
      · exact ih hr hts y hy
    | X k =>
      unfold nestedFactors at h
      obtain ⟨t, ht, h⟩ := bind_ok h
      obtain ⟨ts, hts, h⟩ := bind_ok h
      injection h with h
      subst h
      intro y hy
      rcases List.mem_cons.1 hy with rfl | hy
      · exact cluster_writable hx ht
      · exact ih hr hts y hy

theorem NestedLoop.writable {m : Machine} (hcanon : CanonContract m.canon) (hord : m.ord.Lawful) (hcpu : 1 ≤ m.cpus) {o : Options} (hn : 1 ≤ o.nProcess)
    (ho : o.expandHole = true) {singleRef : Bool} {scale : ℚ} : ∀ {e : List (ℤ × List OpName)} {calls : List (List Term × ℚ)} {out : List Term},
    (∀ p ∈ e, p.2 ≠ [] ∧ p.2.countP OpName.isH ≤ 1 ∧ ∀ x ∈ p.2, 1 ≤ x.bodies) →
    NestedLoop m o singleRef scale e calls out → ∀ t ∈ out, Writable t := by
  intro e
  induction e with
  | nil =>
    rintro calls out _ ⟨rfl, rfl⟩
    simp
  | cons p e ih =>
    obtain ⟨c, names⟩ := p
    rintro calls out h ⟨terms, o1, calls', o2, ht, hr, hl, rfl, rfl⟩ t hmem
    obtain ⟨h1, h2, h3⟩ := h (c, names) (by simp)
    rcases List.mem_append.1 hmem with hmem | hmem
    · have hw := nestedFactors_writable h3 ht
      obtain ⟨g1, g2, -⟩ := nestedFactors_good h2 ht
      have hne : terms ≠ [] := by
        rintro rfl
        exact hr
      exact ContractRun.writable hcanon hord hcpu hn ho hne hw g2 hr t hmem
    · exact ih (fun q hq => h q (by simp [hq])) hl t hmem

theorem NestedRun.writable {m : Machine} (hcanon : CanonContract m.canon) (hord : m.ord.Lawful) (hcpu : 1 ≤ m.cpus) {o : Options} (hn : 1 ≤ o.nProcess)
    (ho : o.expandHole = true) {level : Nat} {levels : List Nat} (hk : ∀ k ∈ levels, 1 ≤ k) {unitary singleRef : Bool}
    {expansion : List (ℤ × List OpName)} {calls : List (List Term × ℚ)} {out : List Term}
    (h : NestedRun m o level levels unitary singleRef expansion calls out) : ∀ t ∈ out, Writable t := by
  obtain ⟨all, he, hl, hc⟩ := h
  refine writable_combine (NestedLoop.writable hcanon hord hcpu hn ho ?_ hl) hc
  intro p hp
  obtain ⟨h1, h2, h3⟩ := nestedWords_mem (mem_words_of_sum he.wordSum he.words he.coeff hp)
  refine ⟨fun e => by rw [e] at h2; simp at h2, h1.le, ?_⟩
  intro x hx
  cases hxh : x.isH with
  | true => rcases (h3 x hx).1 hxh with rfl | rfl <;> simp [OpName.bodies]
  | false => exact hk _ ((h3 x hx).2 hxh)

end Dsrg
