import Verif.Lemmas.Relabel
import Verif.Spec.Separated
import Verif.Props.Tensors

/-!
`simplify` preserves the value of a term.
-/

namespace Dsrg

section
variable {O : Type}

/-- The state of the replacement map: every label is sent to one with fewer orbitals, all relevant assignments (`N`) factor
through the map, and the counters lie above everything used so far. -/
structure GoodRepl (orb : Orbitals O) (S keys : Finset Index) (N : (Index → O) → Prop) (ρ : Index → Index) (next : Space → Nat) : Prop where
  sub : ∀ i ∈ S, ∀ o, orb.In (ρ i).space o → orb.In i.space o
  dom : ∀ σ, N σ → ∀ i ∈ S, orb.In (ρ i).space (σ i)
  eq : ∀ σ, N σ → ∀ i ∈ S, ∀ j ∈ S, ρ i = ρ j → σ i = σ j
  fresh : ∀ i ∈ keys, (ρ i).number < next (ρ i).space
  base : ∀ i ∈ keys, i.number < next i.space

variable {orb : Orbitals O} {S keys : Finset Index} {N : (Index → O) → Prop}

theorem generateNextIndex_mono (s : Space) (next : Space → Nat) (s' : Space) : next s' ≤ (generateNextIndex s next).2 s' := by
  unfold generateNextIndex
  simp only [Function.update_apply]
  split_ifs with h
  · subst h; omega
  · exact le_refl _

theorem generateNextIndex_lt (s : Space) (next : Space → Nat) :
    (generateNextIndex s next).1.number < (generateNextIndex s next).2 (generateNextIndex s next).1.space := by
  simp [generateNextIndex]

/-- A label below its counter is not the next one. -/
theorem ne_generateNextIndex {s : Space} {next : Space → Nat} {i : Index} (h : i.number < next i.space) :
    i ≠ (generateNextIndex s next).1 := by
  rintro rfl
  simp [generateNextIndex] at h

/-- Sending `i` to a fresh label of a suitable space. -/
theorem GoodRepl.update_fresh {ρ : Index → Index} {next : Space → Nat} (h : GoodRepl orb S keys N ρ next) (hS : S ⊆ keys) (s : Space)
    (i : Index) (h1 : ∀ o, orb.In s o → orb.In i.space o) (h2 : ∀ σ, N σ → orb.In s (σ i)) :
    GoodRepl orb S keys N (Function.update ρ i (generateNextIndex s next).1) (generateNextIndex s next).2 := by
  refine ⟨?_, ?_, ?_, ?_, ?_⟩
  · intro j hj o ho
    by_cases hji : j = i
    · subst hji; rw [Function.update_self] at ho; exact h1 o ho
    · rw [Function.update_of_ne hji] at ho; exact h.sub j hj o ho
  · intro σ hσ j hj
    by_cases hji : j = i
    · subst hji; rw [Function.update_self]; exact h2 σ hσ
    · rw [Function.update_of_ne hji]; exact h.dom σ hσ j hj
  · intro σ hσ j hj k hk e
    by_cases hji : j = i
    · by_cases hki : k = i
      · rw [hji, hki]
      · subst hji
        rw [Function.update_self, Function.update_of_ne hki] at e
        exact absurd e.symm (ne_generateNextIndex (h.fresh k (hS hk)))
    · by_cases hki : k = i
      · subst hki
        rw [Function.update_self, Function.update_of_ne hji] at e
        exact absurd e (ne_generateNextIndex (h.fresh j (hS hj)))
      · rw [Function.update_of_ne hji, Function.update_of_ne hki] at e
        exact h.eq σ hσ j hj k hk e
  · intro j hj
    by_cases hji : j = i
    · subst hji; rw [Function.update_self]; exact generateNextIndex_lt _ _
    · rw [Function.update_of_ne hji]; exact lt_of_lt_of_le (h.fresh j hj) (generateNextIndex_mono _ _ _)
  · intro j hj
    exact lt_of_lt_of_le (h.base j hj) (generateNextIndex_mono _ _ _)

/-- The state invariant of a pass of `simplify`, including the record for diagonal labels. -/
structure GoodState (orb : Orbitals O) (S keys : Finset Index) (N : (Index → O) → Prop) (diag : Finset Index) (st : ReplState) : Prop where
  repl : GoodRepl orb S keys N st.repl st.next
  rd_self : ∀ i, i ∈ st.rdiag i
  rd_dom : ∀ σ, N σ → ∀ i ∈ S, ∀ x ∈ st.rdiag i, orb.In x.space (σ i)
  rd_out : ∀ i ∈ diag, ∀ x ∈ st.rdiag i, x = i ∨ x ∉ keys

theorem GoodState.assignFresh {diag : Finset Index} {st : ReplState} (h : GoodState orb S keys N diag st) (hS : S ⊆ keys)
    {s : Space} {i : Index} (h1 : ∀ o, orb.In s o → orb.In i.space o) (h2 : ∀ σ, N σ → orb.In s (σ i)) :
    GoodState orb S keys N diag (st.assignFresh diag s i) := by
  refine ⟨h.repl.update_fresh hS s i h1 h2, ?_, ?_, ?_⟩
  · intro j
    unfold ReplState.assignFresh ReplState.assign
    simp only []
    split_ifs with hd
    · by_cases hji : j = i
      · subst hji; rw [Function.update_self]; exact Finset.mem_insert_of_mem (h.rd_self j)
      · rw [Function.update_of_ne hji]; exact h.rd_self j
    · exact h.rd_self j
  · intro σ hσ j hj x hx
    unfold ReplState.assignFresh ReplState.assign at hx
    simp only [] at hx
    split_ifs at hx with hd
    · by_cases hji : j = i
      · subst hji
        rw [Function.update_self] at hx
        rcases Finset.mem_insert.1 hx with rfl | hx
        · exact h2 σ hσ
        · exact h.rd_dom σ hσ j hj x hx
      · rw [Function.update_of_ne hji] at hx; exact h.rd_dom σ hσ j hj x hx
    · exact h.rd_dom σ hσ j hj x hx
  · intro j hj x hx
    unfold ReplState.assignFresh ReplState.assign at hx
    simp only [] at hx
    split_ifs at hx with hd
    · by_cases hji : j = i
      · subst hji
        rw [Function.update_self] at hx
        rcases Finset.mem_insert.1 hx with rfl | hx
        · right; intro hk; exact absurd rfl (ne_generateNextIndex (s := s) (h.repl.base _ hk))
        · exact h.rd_out j hj x hx
      · rw [Function.update_of_ne hji] at hx; exact h.rd_out j hj x hx
    · exact h.rd_out j hj x hx

/-- Assigning fresh labels to a list of labels. -/
theorem GoodState.foldl_fresh {diag : Finset Index} (hS : S ⊆ keys) (sp : Index → Space) :
    ∀ (l : List Index) (st : ReplState), GoodState orb S keys N diag st →
      (∀ i ∈ l, ∀ o, orb.In (sp i) o → orb.In i.space o) → (∀ i ∈ l, ∀ σ, N σ → orb.In (sp i) (σ i)) →
      GoodState orb S keys N diag (l.foldl (fun st i => st.assignFresh diag (sp i) i) st) ∧
        ∀ i, i ∉ l → (l.foldl (fun st i => st.assignFresh diag (sp i) i) st).repl i = st.repl i := by
  intro l
  induction l with
  | nil => intro st h _ _; exact ⟨h, fun _ _ => rfl⟩
  | cons a l ih =>
    intro st h h1 h2
    have ha := h.assignFresh hS (h1 a (by simp)) (h2 a (by simp))
    obtain ⟨g1, g2⟩ := ih _ ha (fun i hi => h1 i (by simp [hi])) (fun i hi => h2 i (by simp [hi]))
    refine ⟨g1, ?_⟩
    intro i hi
    rw [List.foldl_cons, g2 i (fun hh => hi (by simp [hh]))]
    unfold ReplState.assignFresh ReplState.assign
    simp only []
    rw [Function.update_of_ne (fun e => hi (by simp [e]))]

end

/-- `Separated` does not depend on the order of the tensors. -/
theorem Separated.perm {core : Bool} {ts ts' : List Tensor} {op : SqOp} (h : Separated core ts op) (hp : ts.Perm ts') :
    Separated core ts' op := by
  refine ⟨?_, ?_, ?_⟩
  · refine hp.pairwise h.apart ?_
    intro a b hab hc i hi hi'
    refine hab ?_ i hi' hi
    rcases hc with ⟨h1, h2⟩ | ⟨h1, h2⟩
    · exact Or.inr ⟨h2, h1⟩
    · exact Or.inl ⟨h2, h1⟩
  · intro a ha h1 i hi
    obtain ⟨d1, d2⟩ := h.diag a (hp.mem_iff.2 ha) h1 i hi
    exact ⟨fun b hb => d1 b (hp.mem_iff.2 hb), d2⟩
  · intro a ha; exact h.active a (hp.mem_iff.2 ha)

/-! ### Facts about the downgraded spaces -/

theorem downgrade_density_sub (u l s : Space) (h : downgradeDensity .v .h u l = some s) :
    s.beta = u.beta ∧ s.beta = l.beta ∧ ∀ e, s.kind.Denotes e → u.kind.Denotes e ∧ l.kind.Denotes e := by
  revert u l s; decide +kernel

theorem downgrade_density_dom (u l s : Space) (h : downgradeDensity .v .h u l = some s) (eu el : Elem) (hu : u.kind.Denotes eu)
    (hl : l.kind.Denotes el) (h1 : eu ≠ .virt) (h2 : el ≠ .virt) (h3 : eu = .core ∨ el = .core → eu = el) :
    s.kind.Denotes eu ∧ s.kind.Denotes el := by
  revert u l s eu el; decide +kernel

theorem downgrade_density_core (u l s : Space) (h : downgradeDensity .v .h u l = some s) (hs : s.kind = .c) :
    (u.kind = .c ∨ l.kind = .c) ∧ u.beta = l.beta := by
  revert u l s; decide +kernel

theorem downgrade_density_core' (u l s : Space) (h : downgradeDensity .v .h u l = some s) (hs : s.kind ≠ .c) :
    ¬ (u.kind = .c ∨ l.kind = .c) := by
  revert u l s; decide +kernel

theorem Orbitals.in_active {O : Type} {orb : Orbitals O} {i : Index} {o : O} (hi : i.space.kind.Denotes .active) (h : orb.In (activeOf i) o) :
    orb.In i.space o := by
  obtain ⟨h1, h2⟩ := h
  refine ⟨?_, h2⟩
  have : orb.elem o = .active := by
    revert h1; show Kind.Denotes .a _ → _
    generalize orb.elem o = e
    revert e; decide
  rw [this]; exact hi

theorem Tensor.indices_one {t : Tensor} {u l : Index} (hu : t.upper.list = [u]) (hl : t.lower.list = [l]) : t.pair.indices = [u, l] := by
  simp [IndicesPair.indices, hu, hl]

section
variable {O R M : Type} [DecidableEq O] [CommRing R] {orb : Orbitals O} {S keys : Finset Index} {N : (Index → O) → Prop}
  {I : Interp O R M}

theorem downgradeStep_spec (hph : I.Physical orb) (hac : I.ActiveCumulants orb) (hS : S ⊆ keys)
    (hN : ∀ σ, N σ → ∀ i ∈ S, orb.In i.space (σ i)) {core : Bool} {diag : Finset Index} {st st' : ReplState} {t t' : Tensor}
    (hst : GoodState orb S keys N diag st) (hSt : ∀ i ∈ t.pair.indices, i ∈ S) (ht : ∀ σ, N σ → I.tval σ t ≠ 0)
    (hact : t.cls = .cumulant → t.upper.list.length ≠ 1 → ∀ i ∈ t.upper.list ++ t.lower.list, i.space.kind.Denotes .active)
    (h : downgradeStep core diag st t = .ok (st', t')) :
    GoodState orb S keys N diag st' ∧
      (∀ i, (t.cls = .cumulant → ¬ ActsAsDelta core t → i ∉ t.pair.indices) → st'.repl i = st.repl i) ∧
      t'.pair = t.pair ∧ (t'.cls = .kronecker ↔ ActsAsDelta core t) ∧ (t'.cls ≠ .kronecker → t' = t) ∧
      ∀ σ : Index → O, (∀ i ∈ S, orb.In i.space (σ i)) → I.tval σ t' = I.tval σ t := by
  unfold downgradeStep at h
  by_cases hc : t.cls = .cumulant
  · rw [if_pos hc] at h
    have hnk : t.cls ≠ .kronecker := by rw [hc]; decide
    unfold IndicesPair.nBody at h
    by_cases hnb : t.pair.nLower = t.pair.nUpper
    · rw [if_neg (by simpa using hnb)] at h
      simp only [bind, Except.bind, pure, Except.pure] at h
      by_cases hn1 : t.pair.nLower = 1
      · rw [if_neg (by simpa using hn1)] at h
        have hu1 : t.upper.list.length = 1 := by
          have : t.pair.nUpper = 1 := by rw [← hnb]; exact hn1
          exact this
        obtain ⟨u, hu⟩ := List.length_eq_one_iff.1 hu1
        obtain ⟨l, hl⟩ := List.length_eq_one_iff.1 (show t.lower.list.length = 1 from hn1)
        have hd : t.downgradeIndices = .ok (downgradeDensity .v .h u.space l.space) := by
          unfold Tensor.downgradeIndices; rw [hc, hu, hl]
        rw [hd] at h
        have hidx := Tensor.indices_one hu hl
        have huS : u ∈ S := hSt u (by simp [hidx])
        have hlS : l ∈ S := hSt l (by simp [hidx])
        have htv : ∀ σ : Index → O, I.tval σ t = I.tensor .cumulant t.name [σ u] [σ l] := by
          intro σ; simp [Interp.tval, hc, hu, hl]
        cases hs : downgradeDensity .v .h u.space l.space with
        | none => rw [hs] at h; simp at h
        | some s =>
          rw [hs] at h
          simp only [] at h
          by_cases hk : s.kind = .c ∧ core = true
          · rw [if_pos hk] at h
            cases hm : Tensor.make .kronecker t.upper t.lower ['K'] (-1) with
            | error e => rw [hm] at h; simp at h
            | ok k =>
              rw [hm] at h
              simp only [Except.ok.injEq, Prod.mk.injEq] at h
              obtain ⟨rfl, rfl⟩ := h
              obtain ⟨rfl, -⟩ := Tensor.make_eq hm
              obtain ⟨hcc, hb⟩ := downgrade_density_core _ _ _ hs hk.1
              have hacts : ActsAsDelta core t := Or.inr ⟨hk.2, hc, u, l, hu, hl, hcc⟩
              refine ⟨hst, fun _ _ => rfl, rfl, ⟨fun _ => hacts, fun _ => rfl⟩, fun hh => absurd rfl hh, ?_⟩
              intro σ hσ
              rw [htv]
              have : I.tval σ ⟨.kronecker, ['K'], -1, ⟨t.upper, t.lower⟩⟩ = I.tensor .kronecker ['K'] [σ u] [σ l] := by
                simp [Interp.tval, Tensor.upper, Tensor.lower] at *
                simp [hu, hl]
              rw [this, hph.kron]
              symm
              apply hph.dens_core
              have key : ∀ {k : Kind} {e : Elem}, k = .c → k.Denotes e → e = .core := by decide
              rcases hcc with hcc | hcc
              · exact Or.inl (key hcc (hσ u huS).1)
              · exact Or.inr (key hcc (hσ l hlS).1)
          · rw [if_neg hk] at h
            simp only [Except.ok.injEq, Prod.mk.injEq] at h
            obtain ⟨rfl, rfl⟩ := h
            have hnd : ¬ ActsAsDelta core t := by
              rintro (hh | ⟨hcore, -, u', l', hu', hl', hcc⟩)
              · exact hnk hh
              · rw [hu] at hu'; rw [hl] at hl'
                obtain rfl : u = u' := by simpa using hu'
                obtain rfl : l = l' := by simpa using hl'
                exact downgrade_density_core' _ _ _ hs (fun e => hk ⟨e, hcore⟩) hcc
            obtain ⟨hb1, hb2, hsub⟩ := downgrade_density_sub _ _ _ hs
            have hdom : ∀ σ, N σ → orb.In s (σ u) ∧ orb.In s (σ l) := by
              intro σ hσ
              have h0 := ht σ hσ
              rw [htv] at h0
              have hnv : orb.elem (σ u) ≠ .virt ∧ orb.elem (σ l) ≠ .virt := by
                constructor <;> intro hv
                · exact h0 (hph.dens _ _ _ (Or.inl hv))
                · exact h0 (hph.dens _ _ _ (Or.inr hv))
              have hcore : orb.elem (σ u) = .core ∨ orb.elem (σ l) = .core → orb.elem (σ u) = orb.elem (σ l) := by
                intro hh
                rw [hph.dens_core _ _ _ hh] at h0
                by_cases he : σ u = σ l
                · rw [he]
                · rw [if_neg he] at h0; exact absurd rfl h0
              obtain ⟨d1, d2⟩ := downgrade_density_dom _ _ _ hs _ _ (hN σ hσ u huS).1 (hN σ hσ l hlS).1 hnv.1 hnv.2 hcore
              exact ⟨⟨d1, hb1.trans (hN σ hσ u huS).2⟩, ⟨d2, hb2.trans (hN σ hσ l hlS).2⟩⟩
            obtain ⟨g1, g2⟩ := hst.foldl_fresh hS (fun _ => s) t.upper.list st
              (by rw [hu]; simp only [List.mem_singleton]; rintro i rfl o ho; exact ⟨(hsub _ ho.1).1, hb1.symm.trans ho.2⟩)
              (by rw [hu]; simp only [List.mem_singleton]; rintro i rfl σ hσ; exact (hdom σ hσ).1)
            obtain ⟨g3, g4⟩ := g1.foldl_fresh hS (fun _ => s) t.lower.list _
              (by rw [hl]; simp only [List.mem_singleton]; rintro i rfl o ho; exact ⟨(hsub _ ho.1).2, hb2.symm.trans ho.2⟩)
              (by rw [hl]; simp only [List.mem_singleton]; rintro i rfl σ hσ; exact (hdom σ hσ).2)
            refine ⟨g3, ?_, rfl, ⟨fun hh => absurd hh hnk, fun hh => absurd hh hnd⟩, fun _ => rfl, fun _ _ => rfl⟩
            intro i hi
            have := hi hc hnd
            rw [hidx] at this
            rw [g4 i (by rw [hl]; simp at this ⊢; tauto), g2 i (by rw [hu]; simp at this ⊢; tauto)]
      · rw [if_pos (by simpa using hn1)] at h
        simp only [Except.ok.injEq, Prod.mk.injEq] at h
        obtain ⟨rfl, rfl⟩ := h
        have hlen : t.upper.list.length ≠ 1 := by
          intro e; apply hn1; rw [hnb]; exact e
        have hnd : ¬ ActsAsDelta core t := by
          rintro (hh | ⟨hcore, -, u', l', hu', hl', hcc⟩)
          · exact hnk hh
          · rw [hu'] at hlen; simp at hlen
        have ha := hact hc hlen
        have hdom : ∀ i ∈ t.upper.list ++ t.lower.list, ∀ σ, N σ → orb.In (activeOf i) (σ i) := by
          intro i hi σ hσ
          have hiS : i ∈ S := hSt i (by simpa [IndicesPair.indices] using hi)
          refine ⟨?_, (hN σ hσ i hiS).2⟩
          have : orb.elem (σ i) = .active := by
            by_contra hne
            apply ht σ hσ
            unfold Interp.tval
            rw [hc]
            refine hac _ _ _ (by simpa using hlen) ⟨σ i, ?_, hne⟩
            rw [← List.map_append]; exact List.mem_map_of_mem hi
          rw [this]; trivial
        obtain ⟨g1, g2⟩ := hst.foldl_fresh hS activeOf t.upper.list st
          (fun i hi o ho => Orbitals.in_active (ha i (by simp [hi])) ho) (fun i hi => hdom i (by simp [hi]))
        obtain ⟨g3, g4⟩ := g1.foldl_fresh hS activeOf t.lower.list _
          (fun i hi o ho => Orbitals.in_active (ha i (by simp [hi])) ho) (fun i hi => hdom i (by simp [hi]))
        refine ⟨g3, ?_, rfl, ⟨fun hh => absurd hh hnk, fun hh => absurd hh hnd⟩, fun _ => rfl, fun _ _ => rfl⟩
        intro i hi
        have := hi hc hnd
        simp only [IndicesPair.indices, List.mem_append, not_or] at this
        rw [g4 i this.2, g2 i this.1]
    · rw [if_pos hnb] at h
      simp [bind, Except.bind] at h
  · rw [if_neg hc] at h
    simp only [pure, Except.pure, Except.ok.injEq, Prod.mk.injEq] at h
    obtain ⟨rfl, rfl⟩ := h
    refine ⟨hst, fun _ _ => rfl, rfl, ⟨fun hh => Or.inl hh, ?_⟩, fun _ => rfl, fun _ _ => rfl⟩
    rintro (hh | hh)
    · exact hh
    · exact absurd hh.2.1 hc


/-- How a tensor comes out of the pass over the cumulants. -/
def Downgraded (I : Interp O R M) (orb : Orbitals O) (S : Finset Index) (core : Bool) (t t' : Tensor) : Prop :=
  t'.pair = t.pair ∧ (t'.cls = .kronecker ↔ ActsAsDelta core t) ∧ (t'.cls ≠ .kronecker → t' = t) ∧
    ∀ σ : Index → O, (∀ i ∈ S, orb.In i.space (σ i)) → I.tval σ t' = I.tval σ t

theorem downgradeCumulants_spec (hph : I.Physical orb) (hac : I.ActiveCumulants orb) (hS : S ⊆ keys)
    (hN : ∀ σ, N σ → ∀ i ∈ S, orb.In i.space (σ i)) {core : Bool} {diag : Finset Index} :
    ∀ (ts : List Tensor) (st : ReplState) (r : ReplState × List Tensor), GoodState orb S keys N diag st →
      (∀ t ∈ ts, ∀ i ∈ t.pair.indices, i ∈ S) → (∀ t ∈ ts, ∀ σ, N σ → I.tval σ t ≠ 0) →
      (∀ t ∈ ts, t.cls = .cumulant → t.upper.list.length ≠ 1 → ∀ i ∈ t.upper.list ++ t.lower.list, i.space.kind.Denotes .active) →
      downgradeCumulants core diag st ts = .ok r →
      GoodState orb S keys N diag r.1 ∧
        (∀ i, (∀ t ∈ ts, t.cls = .cumulant → ¬ ActsAsDelta core t → i ∉ t.pair.indices) → r.1.repl i = st.repl i) ∧
        List.Forall₂ (Downgraded I orb S core) ts r.2 := by
  intro ts
  induction ts with
  | nil =>
    intro st r hst _ _ _ h
    simp only [downgradeCumulants, pure, Except.pure, Except.ok.injEq] at h
    subst h
    exact ⟨hst, fun _ _ => rfl, .nil⟩
  | cons t ts ih =>
    intro st r hst h1 h2 h3 h
    simp only [downgradeCumulants, bind, Except.bind] at h
    cases hs : downgradeStep core diag st t with
    | error e => rw [hs] at h; simp at h
    | ok q =>
      rw [hs] at h
      simp only [] at h
      cases hr : downgradeCumulants core diag q.1 ts with
      | error e => rw [hr] at h; simp at h
      | ok qs =>
        rw [hr] at h
        simp only [pure, Except.pure, Except.ok.injEq] at h
        subst h
        obtain ⟨a1, a2, a3⟩ := downgradeStep_spec hph hac hS hN hst (h1 t (by simp)) (h2 t (by simp)) (h3 t (by simp)) hs
        obtain ⟨b1, b2, b3⟩ := ih _ _ a1 (fun t ht => h1 t (by simp [ht])) (fun t ht => h2 t (by simp [ht]))
          (fun t ht => h3 t (by simp [ht])) hr
        refine ⟨b1, ?_, .cons a3 b3⟩
        intro i hi
        rw [b2 i fun t ht => hi t (by simp [ht]), a2 i (hi t (by simp))]

end

/-! ### The deltas -/

theorem priority_order (u l : Space) (h : u.priority ≤ l.priority) (ho : (u.relation ∩ l.relation).card ≠ 0)
    (hne : ¬ (u.kind = .p ∧ l.kind = .h)) : u.beta = l.beta ∧ ∀ e, l.kind.Denotes e → u.kind.Denotes e := by
  revert u l; decide +kernel

theorem priority_order' (u l : Space) (ho : (u.relation ∩ l.relation).card ≠ 0)
    (hk : u.kind = .p ∧ l.kind = .h) : u.beta = l.beta ∧ ∀ e, u.kind.Denotes e → l.kind.Denotes e → e = .active := by
  revert u l; decide +kernel

section
variable {O : Type} {orb : Orbitals O} {S keys : Finset Index} {N : (Index → O) → Prop}

theorem GoodRepl.update_two {ρ : Index → Index} {next : Space → Nat} (h : GoodRepl orb S keys N ρ next) (hS : S ⊆ keys) (s : Space)
    {i j : Index} (h1 : ∀ o, orb.In s o → orb.In i.space o ∧ orb.In j.space o) (h2 : ∀ σ, N σ → orb.In s (σ i) ∧ σ i = σ j) :
    GoodRepl orb S keys N (Function.update (Function.update ρ i (generateNextIndex s next).1) j (generateNextIndex s next).1)
      (generateNextIndex s next).2 := by
  have key : ∀ k, Function.update (Function.update ρ i (generateNextIndex s next).1) j (generateNextIndex s next).1 k =
      if k = i ∨ k = j then (generateNextIndex s next).1 else ρ k := by
    intro k
    simp only [Function.update_apply]
    by_cases a : k = j <;> by_cases b : k = i <;> simp [a, b]
  have hsp : (generateNextIndex s next).1.space = s := rfl
  refine ⟨?_, ?_, ?_, ?_, ?_⟩
  · intro k hk o ho
    rw [key] at ho
    split_ifs at ho with hc
    · rcases hc with rfl | rfl
      · exact (h1 o ho).1
      · exact (h1 o ho).2
    · exact h.sub k hk o ho
  · intro σ hσ k hk
    rw [key]
    obtain ⟨d1, d2⟩ := h2 σ hσ
    split_ifs with hc
    · rcases hc with rfl | rfl
      · exact d1
      · rw [← d2]; exact d1
    · exact h.dom σ hσ k hk
  · intro σ hσ k hk m hm e
    rw [key, key] at e
    obtain ⟨-, d2⟩ := h2 σ hσ
    split_ifs at e with hc hd hd
    · rcases hc with rfl | rfl <;> rcases hd with rfl | rfl <;> simp [d2]
    · exact absurd e.symm (ne_generateNextIndex (h.fresh m (hS hm)))
    · exact absurd e (ne_generateNextIndex (h.fresh k (hS hk)))
    · exact h.eq σ hσ k hk m hm e
  · intro k hk
    rw [key]
    split_ifs with hc
    · exact generateNextIndex_lt _ _
    · exact lt_of_lt_of_le (h.fresh k hk) (generateNextIndex_mono _ _ _)
  · intro k hk
    exact lt_of_lt_of_le (h.base k hk) (generateNextIndex_mono _ _ _)

theorem GoodRepl.update_old {ρ : Index → Index} {next : Space → Nat} (h : GoodRepl orb S keys N ρ next)
    {i j : Index} (hj : j ∈ S) (hjk : j ∈ keys) (hρ : ρ j = j) (h1 : ∀ o, orb.In j.space o → orb.In i.space o)
    (h2 : ∀ σ, N σ → orb.In j.space (σ j) ∧ σ i = σ j) : GoodRepl orb S keys N (Function.update ρ i j) next := by
  refine ⟨?_, ?_, ?_, ?_, h.base⟩
  · intro k hk o ho
    rw [Function.update_apply] at ho
    split_ifs at ho with hc
    · subst hc; exact h1 o ho
    · exact h.sub k hk o ho
  · intro σ hσ k hk
    rw [Function.update_apply]
    split_ifs with hc
    · subst hc; rw [(h2 σ hσ).2]; exact (h2 σ hσ).1
    · exact h.dom σ hσ k hk
  · intro σ hσ k hk m hm e
    simp only [Function.update_apply] at e
    split_ifs at e with hc hd hd
    · rw [hc, hd]
    · rw [hc, (h2 σ hσ).2]; exact h.eq σ hσ j hj m hm (by rw [hρ]; exact e)
    · rw [hd, (h2 σ hσ).2]; exact h.eq σ hσ k hk j hj (by rw [hρ]; exact e)
    · exact h.eq σ hσ k hk m hm e
  · intro k hk
    rw [Function.update_apply]
    split_ifs with hc
    · exact h.base j hjk
    · exact h.fresh k hk

theorem deltaStep_spec (hS : S ⊆ keys) (hN : ∀ σ, N σ → ∀ i ∈ S, orb.In i.space (σ i)) {diag : Finset Index} {st st' : ReplState}
    {t : Tensor} (hk : t.cls = .kronecker) (hst : GoodRepl orb S keys N st.repl st.next) (hSt : ∀ i ∈ t.pair.indices, i ∈ S)
    (hid : ∀ i ∈ t.pair.indices, st.repl i = i) (hdg : ∀ i ∈ t.pair.indices, i ∉ diag)
    (heq : ∀ σ, N σ → ∀ u l, t.upper.list = [u] → t.lower.list = [l] → σ u = σ l)
    (h : deltaStep diag st t = .ok st') :
    GoodRepl orb S keys N st'.repl st'.next ∧ st'.rdiag = st.rdiag ∧ (∀ i, i ∉ t.pair.indices → st'.repl i = st.repl i) ∧
      ∃ u l, t.upper.list = [u] ∧ t.lower.list = [l] ∧ st'.repl u = st'.repl l := by
  unfold deltaStep at h
  unfold Tensor.downgradeIndices at h
  rw [hk] at h
  rcases hu : t.upper.list with _ | ⟨u, _ | ⟨u', us⟩⟩
  · simp [hu, bind, Except.bind] at h
  swap
  · simp [hu, bind, Except.bind] at h
  rcases hl : t.lower.list with _ | ⟨l, _ | ⟨l', ls⟩⟩
  · simp [hu, hl, bind, Except.bind] at h
  swap
  · simp [hu, hl, bind, Except.bind] at h
  have hidx := Tensor.indices_one hu hl
  simp only [hu, hl, bind, Except.bind] at h
  cases hd : downgradeDelta u l with
  | none => rw [hd] at h; simp at h
  | some s0 =>
    rw [hd] at h
    simp only [] at h
    -- the two labels in order
    have hsort : ∃ a b, sortTwo u l = (a, b) ∧ a.space.priority ≤ b.space.priority ∧
        (a.space.relation ∩ b.space.relation).card ≠ 0 ∧ ((a = u ∧ b = l) ∨ (a = l ∧ b = u)) := by
      unfold downgradeDelta at hd
      unfold sortTwo
      by_cases hlt : l.pyLt u = true
      · simp only [hlt, if_true] at hd ⊢
        refine ⟨l, u, rfl, ?_, ?_, Or.inr ⟨rfl, rfl⟩⟩
        · rw [Index.pyLt_iff, Index.lt_iff] at hlt; omega
        · intro e; rw [if_pos e] at hd; exact absurd hd (by simp)
      · simp only [hlt] at hd ⊢
        refine ⟨u, l, rfl, ?_, ?_, Or.inl ⟨rfl, rfl⟩⟩
        · rw [Index.pyLt_iff, Index.lt_iff] at hlt; omega
        · intro e; simp [e] at hd
    obtain ⟨a, b, hab, hpr, hov, hcase⟩ := hsort
    rw [hab] at h
    simp only [] at h
    have hmem : ∀ i, i ∈ t.pair.indices ↔ i = a ∨ i = b := by
      intro i; rw [hidx]; rcases hcase with ⟨rfl, rfl⟩ | ⟨rfl, rfl⟩ <;> simp [or_comm]
    have ha := hSt a ((hmem a).2 (Or.inl rfl))
    have hb := hSt b ((hmem b).2 (Or.inr rfl))
    have hab' : ∀ σ, N σ → σ a = σ b := by
      intro σ hσ
      have := heq σ hσ u l hu hl
      rcases hcase with ⟨rfl, rfl⟩ | ⟨rfl, rfl⟩
      · exact this
      · exact this.symm
    have hda := hdg a ((hmem a).2 (Or.inl rfl))
    have hdb := hdg b ((hmem b).2 (Or.inr rfl))
    have hfin : ∀ f : Index → Index, f a = f b → ∃ u' l', [u] = [u'] ∧ [l] = [l'] ∧ f u' = f l' := by
      intro f hf
      refine ⟨u, l, rfl, rfl, ?_⟩
      rcases hcase with ⟨rfl, rfl⟩ | ⟨rfl, rfl⟩
      · exact hf
      · exact hf.symm
    by_cases hph : (a.space.kind, b.space.kind) = (Kind.p, Kind.h)
    · rw [if_pos hph] at h
      simp only [pure, Except.pure, Except.ok.injEq] at h
      subst h
      rw [Prod.mk.injEq] at hph
      obtain ⟨hbeta, hact⟩ := priority_order' _ _ hov hph
      refine ⟨?_, ?_, ?_, ?_⟩
      · refine hst.update_two hS _ ?_ ?_
        · rintro o ⟨o1, o2⟩
          have : orb.elem o = .active := by
            revert o1; show Kind.Denotes .a _ → _
            generalize orb.elem o = e
            revert e; decide
          have pd : Kind.Denotes .p .active := by decide
          have hd' : Kind.Denotes .h .active := by decide
          exact ⟨⟨by rw [hph.1, this]; exact pd, o2⟩, ⟨by rw [hph.2, this]; exact hd', hbeta.symm.trans o2⟩⟩
        · intro σ hσ
          have e := hab' σ hσ
          refine ⟨⟨?_, (hN σ hσ a ha).2⟩, e⟩
          rw [hact _ (hN σ hσ a ha).1 (by rw [e]; exact (hN σ hσ b hb).1)]
          trivial
      · simp [ReplState.assign, hda, hdb]
      · intro i hi
        rw [hmem, not_or] at hi
        simp [ReplState.assign, Function.update_apply, hi.1, hi.2]
      · apply hfin
        simp [ReplState.assign, Function.update_apply]
    · rw [if_neg hph] at h
      simp only [pure, Except.pure, Except.ok.injEq] at h
      subst h
      obtain ⟨hbeta, hsub⟩ := priority_order _ _ hpr hov (by rw [Prod.mk.injEq] at hph; exact hph)
      have hidb := hid b ((hmem b).2 (Or.inr rfl))
      refine ⟨?_, ?_, ?_, ?_⟩
      · refine hst.update_old hb (hS hb) hidb ?_ ?_
        · rintro o ⟨o1, o2⟩; exact ⟨hsub _ o1, hbeta.trans o2⟩
        · intro σ hσ; exact ⟨hN σ hσ b hb, hab' σ hσ⟩
      · simp [ReplState.assign, hda]
      · intro i hi
        rw [hmem, not_or] at hi
        simp [ReplState.assign, Function.update_apply, hi.1]
      · apply hfin
        by_cases e : b = a
        · rw [e]
        · simp [ReplState.assign, Function.update_apply, e, hidb]

theorem removeDeltas_spec (hS : S ⊆ keys) (hN : ∀ σ, N σ → ∀ i ∈ S, orb.In i.space (σ i)) {diag : Finset Index} :
    ∀ (ts : List Tensor) (st : ReplState) (r : ReplState × List Tensor), GoodRepl orb S keys N st.repl st.next →
      (∀ t ∈ ts, ∀ i ∈ t.pair.indices, i ∈ S) →
      (∀ t ∈ ts, t.cls = .kronecker → ∀ i ∈ t.pair.indices, st.repl i = i ∧ i ∉ diag) →
      (ts.Pairwise fun a b => a.cls = .kronecker → b.cls = .kronecker → ∀ i ∈ a.pair.indices, i ∉ b.pair.indices) →
      (∀ t ∈ ts, t.cls = .kronecker → ∀ σ, N σ → ∀ u l, t.upper.list = [u] → t.lower.list = [l] → σ u = σ l) →
      removeDeltas diag st ts = .ok r →
      GoodRepl orb S keys N r.1.repl r.1.next ∧ r.1.rdiag = st.rdiag ∧
        (∀ i, (∀ t ∈ ts, t.cls = .kronecker → i ∉ t.pair.indices) → r.1.repl i = st.repl i) ∧
        r.2 = ts.filter (fun t => decide (t.cls ≠ .kronecker)) ∧
        ∀ t ∈ ts, t.cls = .kronecker → ∃ u l, t.upper.list = [u] ∧ t.lower.list = [l] ∧ r.1.repl u = r.1.repl l := by
  intro ts
  induction ts with
  | nil =>
    intro st r hst _ _ _ _ h
    simp only [removeDeltas, pure, Except.pure, Except.ok.injEq] at h
    subst h
    exact ⟨hst, rfl, fun _ _ => rfl, rfl, by simp⟩
  | cons t ts ih =>
    intro st r hst h1 h2 h3 h4 h
    rw [List.pairwise_cons] at h3
    simp only [removeDeltas] at h
    by_cases hk : t.cls = .kronecker
    · rw [if_pos hk] at h
      simp only [bind, Except.bind] at h
      cases hs : deltaStep diag st t with
      | error e => rw [hs] at h; simp at h
      | ok st' =>
        rw [hs] at h
        simp only [] at h
        obtain ⟨a1, a2, a3, u, l, hu, hl, a4⟩ := deltaStep_spec hS hN hk hst (h1 t (by simp)) (fun i hi => (h2 t (by simp) hk i hi).1)
          (fun i hi => (h2 t (by simp) hk i hi).2) (h4 t (by simp) hk) hs
        obtain ⟨b1, b2, b3, b4, b5⟩ := ih st' r a1 (fun t ht => h1 t (by simp [ht]))
          (fun t' ht' hk' i hi => by
            refine ⟨?_, (h2 t' (by simp [ht']) hk' i hi).2⟩
            rw [a3 i fun hh => h3.1 t' ht' hk hk' i hh hi]
            exact (h2 t' (by simp [ht']) hk' i hi).1)
          h3.2 (fun t ht => h4 t (by simp [ht])) h
        refine ⟨b1, b2.trans a2, ?_, ?_, ?_⟩
        · intro i hi
          rw [b3 i fun t ht => hi t (by simp [ht]), a3 i (hi t (by simp) hk)]
        · rw [b4]; simp [hk]
        · intro t' ht' hk'
          rcases List.mem_cons.1 ht' with rfl | ht'
          · refine ⟨u, l, hu, hl, ?_⟩
            have hidx := Tensor.indices_one hu hl
            rw [b3 u fun t'' ht'' hk'' => h3.1 t'' ht'' hk hk'' u (by simp [hidx]),
              b3 l fun t'' ht'' hk'' => h3.1 t'' ht'' hk hk'' l (by simp [hidx])]
            exact a4
          · exact b5 t' ht' hk'
    · rw [if_neg hk] at h
      simp only [bind, Except.bind] at h
      cases hr : removeDeltas diag st ts with
      | error e => rw [hr] at h; simp at h
      | ok q =>
        rw [hr] at h
        simp only [pure, Except.pure, Except.ok.injEq] at h
        subst h
        obtain ⟨b1, b2, b3, b4, b5⟩ := ih st q hst (fun t ht => h1 t (by simp [ht])) (fun t ht => h2 t (by simp [ht])) h3.2
          (fun t ht => h4 t (by simp [ht])) hr
        refine ⟨b1, b2, ?_, ?_, ?_⟩
        · intro i hi; exact b3 i fun t ht => hi t (by simp [ht])
        · simp [hk, b4]
        · intro t' ht' hk'
          rcases List.mem_cons.1 ht' with rfl | ht'
          · exact absurd hk' hk
          · exact b5 t' ht' hk'

/-! ### The diagonal labels -/

theorem inf_relation (l : List Index) (i : Index) : (∃ s : Space, i.space.relation ∩ (l.toFinset.inf fun j => j.space.relation) = s.relation) ∨
    i.space.relation ∩ (l.toFinset.inf fun j => j.space.relation) = ∅ := by
  induction l generalizing i with
  | nil => left; exact ⟨i.space, by simp⟩
  | cons a l ih =>
    rw [List.toFinset_cons, Finset.inf_insert]
    rw [Finset.inf_eq_inter, ← Finset.inter_assoc]
    rcases relation_inter i.space a.space with h | ⟨r, h⟩
    · right; rw [h, Finset.empty_inter]
    · rw [h]
      have := ih ⟨r, 0⟩
      simpa using this

theorem mem_inf_relation (X : Finset Index) (s : Space) : s ∈ (X.inf fun j => j.space.relation) ↔ ∀ x ∈ X, s ∈ x.space.relation := by
  induction X using Finset.induction_on with
  | empty => simp
  | insert a X ha ih => rw [Finset.inf_insert, Finset.inf_eq_inter, Finset.mem_inter, ih]; simp

theorem mem_relation (s r : Space) (e : Elem) : (⟨e.kind, r.beta⟩ : Space) ∈ s.relation ↔ s.kind.Denotes e ∧ s.beta = r.beta := by
  revert s r e; decide +kernel

theorem Orbitals.In_iff {orb : Orbitals O} {s : Space} {o : O} : orb.In s o ↔ (⟨(orb.elem o).kind, orb.spin o⟩ : Space) ∈ s.relation := by
  rw [mem_relation s ⟨.g, orb.spin o⟩]; rfl

/-- The space found for a diagonal label runs over the orbitals common to all its recorded labels. -/
theorem overlap_spec {orb : Orbitals O} {X : Finset Index} {i : Index} (hi : i ∈ X) {first s : Space}
    (hf : ∀ Y : Finset Space, Y = (X.inf fun j => j.space.relation) → Y.Nonempty → first ∈ Y)
    (h : findSpaceLabel (X.inf fun j => j.space.relation) first = .ok (some s)) (o : O) :
    orb.In s o ↔ ∀ x ∈ X, orb.In x.space o := by
  have hX : (∃ s : Space, (X.inf fun j => j.space.relation) = s.relation) ∨ (X.inf fun j => j.space.relation) = ∅ := by
    have hins : insert i X = X := Finset.insert_eq_of_mem hi
    have := inf_relation X.toList i
    rw [Finset.toList_toFinset] at this
    have e : (insert i X).inf (fun j : Index => j.space.relation) = i.space.relation ∩ (X.inf fun j => j.space.relation) := by
      rw [Finset.inf_insert, Finset.inf_eq_inter]
    rw [← e, hins] at this
    exact this
  rcases hX with ⟨r, hr⟩ | hr
  · have hfr : first ∈ r.relation := by rw [← hr]; exact hf _ rfl (by rw [hr]; exact relation_nonempty r)
    rw [hr, findSpaceLabel_relation r first hfr] at h
    simp only [Except.ok.injEq, Option.some.injEq] at h
    subst h
    rw [Orbitals.In_iff, ← hr, mem_inf_relation]
    simp only [Orbitals.In_iff]
  · rw [hr] at h
    exact absurd h (by simp [findSpaceLabel])

theorem diagonalLoop_spec (hS : S ⊆ keys) {ord : SetOrder} (hord : ord.Lawful) {rd : Index → Finset Index} :
    ∀ (L : List Index) (q r : (Index → Index) × (Space → Nat) × Finset Index), GoodRepl orb S keys N q.1 q.2.1 →
      (∀ i ∈ L, i ∈ rd i) → (∀ σ, N σ → ∀ i ∈ S, ∀ x ∈ rd i, orb.In x.space (σ i)) →
      (∀ i ∈ L, ∀ x ∈ rd i, x = i ∨ x ∉ keys) → (∀ i ∈ L, i ∈ S) →
      diagonalLoop ord rd L q = .ok r →
      GoodRepl orb S keys N r.1 r.2.1 ∧ (∀ i ∈ keys, i ∉ L → r.1 i = q.1 i) ∧ q.2.2 ⊆ r.2.2 := by
  intro L
  induction L with
  | nil =>
    intro q r hst _ _ _ _ h
    simp only [diagonalLoop, pure, Except.pure, Except.ok.injEq] at h
    subst h
    exact ⟨hst, fun _ _ _ => rfl, subset_rfl⟩
  | cons i L ih =>
    intro q r hst h1 h2 h3 h4 h
    obtain ⟨repl, next, ks⟩ := q
    simp only [diagonalLoop, bind, Except.bind] at h
    cases hs : findSpaceLabel ((rd i).inf fun j => j.space.relation)
        ((ord.spaces ((rd i).inf fun j => j.space.relation)).headD ⟨.g, false⟩) with
    | error e => rw [hs] at h; simp at h
    | ok so =>
      rw [hs] at h
      cases so with
      | none => simp at h
      | some s =>
        simp only [] at h
        have hself := h1 i (by simp)
        have hspec := fun o => overlap_spec (orb := orb) hself (first := (ord.spaces ((rd i).inf fun j => j.space.relation)).headD ⟨.g, false⟩)
          (by
            intro Y hY hne
            obtain ⟨y, hy⟩ := hne
            rw [← hY]
            have : y ∈ ord.spaces Y := (hord.mem_spaces Y y).2 hy
            cases hL : ord.spaces Y with
            | nil => rw [hL] at this; simp at this
            | cons z zs =>
              show z ∈ Y
              rw [← hord.mem_spaces Y z, hL]; simp) hs o
        have hold := hst.update_fresh hS s i (fun o ho => (hspec o).1 ho i hself) (fun σ hσ => (hspec _).2 (h2 σ hσ i (h4 i (by simp))))
        have hag : ∀ k ∈ keys, (if k = i ∨ k ∈ rd i then (generateNextIndex s next).1 else repl k) =
            Function.update repl i (generateNextIndex s next).1 k := by
          intro k hk
          rw [Function.update_apply]
          by_cases hki : k = i
          · simp [hki]
          · have : k ∉ rd i := by
              intro hh
              rcases h3 i (by simp) k hh with e | e
              · exact hki e
              · exact e hk
            simp [hki, this]
        have hnew : GoodRepl orb S keys N (fun j => if j = i ∨ j ∈ rd i then (generateNextIndex s next).1 else repl j)
            (generateNextIndex s next).2 := by
          refine ⟨?_, ?_, ?_, ?_, hold.base⟩
          · intro k hk o ho; rw [hag k (hS hk)] at ho; exact hold.sub k hk o ho
          · intro σ hσ k hk; rw [hag k (hS hk)]; exact hold.dom σ hσ k hk
          · intro σ hσ k hk m hm e
            rw [hag k (hS hk), hag m (hS hm)] at e
            exact hold.eq σ hσ k hk m hm e
          · intro k hk; rw [hag k hk]; exact hold.fresh k hk
        obtain ⟨b1, b2, b3⟩ := ih _ r hnew (fun j hj => h1 j (by simp [hj])) h2 (fun j hj => h3 j (by simp [hj]))
          (fun j hj => h4 j (by simp [hj])) h
        refine ⟨b1, ?_, fun x hx => b3 (Finset.mem_union_left _ hx)⟩
        intro k hk hkL
        rw [List.mem_cons, not_or] at hkL
        rw [b2 k hk hkL.2]
        simp only []
        rw [hag k hk, Function.update_of_ne hkL.1]

end

/-! ### The whole pass -/

theorem forall₂_mem {α β : Type} {P : α → β → Prop} {l : List α} {m : List β} (hf : List.Forall₂ P l m) {b : β} (hb : b ∈ m) :
    ∃ a ∈ l, P a b := by
  induction hf with
  | nil => simp at hb
  | cons hab hf ih =>
    rcases List.mem_cons.1 hb with rfl | hb
    · exact ⟨_, by simp, hab⟩
    · obtain ⟨a, ha, h⟩ := ih hb; exact ⟨a, by simp [ha], h⟩

theorem forall₂_pairwise_of {α β : Type} {R : α → α → Prop} {T : β → β → Prop} {P : α → β → Prop}
    (h : ∀ a b a' b', P a b → P a' b' → R a a' → T b b') {l : List α} {m : List β} (hf : List.Forall₂ P l m) (hp : l.Pairwise R) :
    m.Pairwise T := by
  induction hf with
  | nil => exact .nil
  | cons hab hf ih =>
    rw [List.pairwise_cons] at hp ⊢
    refine ⟨?_, ih hp.2⟩
    intro b' hb'
    obtain ⟨a', ha', hP⟩ := forall₂_mem hf hb'
    exact h _ _ _ _ hab hP (hp.1 a' ha')

section
variable {O R M : Type} [Fintype O] [DecidableEq O] [Inhabited O] [CommRing R] [Algebra ℚ R] [AddCommGroup M] [Module R M]
  {orb : Orbitals O} {I : Interp O R M}

theorem prod_ne_zero_mem {l : List R} (h : l.prod ≠ 0) : ∀ x ∈ l, x ≠ 0 := by
  rintro x hx rfl
  exact h (List.prod_eq_zero hx)

theorem flatMap_labels_forall₂ {core : Bool} {S : Finset Index} {ts ts' : List Tensor} (h : List.Forall₂ (Downgraded I orb S core) ts ts') :
    (ts'.flatMap fun t => t.upper.list ++ t.lower.list) = ts.flatMap fun t => t.upper.list ++ t.lower.list := by
  induction h with
  | nil => rfl
  | cons h _ ih => simp only [List.flatMap_cons, ih, Tensor.upper, Tensor.lower, h.1]

theorem pval_forall₂ {core : Bool} {S : Finset Index} {ts ts' : List Tensor} (h : List.Forall₂ (Downgraded I orb S core) ts ts')
    (σ : Index → O) (hσ : ∀ i ∈ S, orb.In i.space (σ i)) : I.pval σ ts' = I.pval σ ts := by
  unfold Interp.pval
  induction h with
  | nil => rfl
  | cons h _ ih => rw [List.map_cons, List.map_cons, List.prod_cons, List.prod_cons, ih, h.2.2.2 σ hσ]

theorem Term.simplify_value {ord : SetOrder} (hord : ord.Lawful) {t t' : Term} {core removeActive : Bool} (hw : t.WF)
    (hdiag : t.diag ⊆ diagonalOf t.tensors t.sqOp) (hsep : Separated core t.tensors t.sqOp)
    (hph : I.Physical orb) (hac : I.ActiveCumulants orb) (hna : removeActive = true → I.NoActiveAmplitudes orb)
    (h : t.simplify ord core removeActive = .ok t') :
    I.value orb t'.coeff t'.tensors t'.sqOp = I.value orb t.coeff t.tensors t.sqOp ∧
      labelsOf t'.tensors t'.sqOp ⊆ t'.indicesSet := by
  set S := labelsOf t.tensors t.sqOp with hSdef
  set keys := t.indicesSet with hkeys
  have hS : S ⊆ keys := hw.set_sub
  let N : (Index → O) → Prop := fun σ => (∀ i ∈ S, orb.In i.space (σ i)) ∧ ∀ x ∈ t.tensors, I.tval σ x ≠ 0
  have hN : ∀ σ, N σ → ∀ i ∈ S, orb.In i.space (σ i) := fun σ h => h.1
  have hlab : ∀ x ∈ t.tensors, ∀ i ∈ x.pair.indices, i ∈ S := fun x hx i hi => mem_labelsOf.2 (mem_labelList.2 (Or.inr ⟨x, hx, hi⟩))
  have hdiagS : ∀ i ∈ t.diag, i ∈ S := by
    intro i hi
    replace hi := mem_diagonalOf.1 (hdiag hi)
    rcases hi with ⟨hi, -⟩ | ⟨x, hx, hi, -⟩
    · exact mem_labelsOf.2 (mem_labelList.2 (Or.inl (by simp [IndicesPair.indices, hi])))
    · exact hlab x hx i (List.mem_append_left _ hi)
  unfold Term.simplify at h
  simp only [bind, Except.bind] at h
  cases hcu : downgradeCumulants core t.diag ⟨id, t.nextNum, fun i => {i}⟩ t.tensors with
  | error e => rw [hcu] at h; simp at h
  | ok cu =>
  rw [hcu] at h
  simp only [] at h
  cases hde : removeDeltas t.diag ⟨cu.1.repl, cu.1.next, fun i => {i}⟩ cu.2 with
  | error e => rw [hde] at h; simp at h
  | ok de =>
  rw [hde] at h
  simp only [] at h
  cases hlo : diagonalLoop ord (fun i => cu.1.rdiag i ∪ de.1.rdiag i) (ord.indices t.diag) (de.1.repl, de.1.next, keys) with
  | error e => rw [hlo] at h; simp at h
  | ok st =>
  rw [hlo] at h
  simp only [] at h
  cases hop : replaceSqOp (lookupIn st.2.2 st.1) t.sqOp with
  | error e => rw [hop] at h; simp at h
  | ok op =>
  rw [hop] at h
  simp only [] at h
  -- the cumulants
  have hinit : GoodState orb S keys N t.diag ⟨id, t.nextNum, fun i => {i}⟩ := by
    refine ⟨⟨fun i _ o ho => ho, fun σ hσ i hi => hσ.1 i hi, ?_, fun i hi => hw.fresh i hi, fun i hi => hw.fresh i hi⟩, ?_, ?_, ?_⟩
    · rintro σ - i - j - (rfl : i = j); rfl
    · intro i; simp
    · intro σ hσ i hi x hx
      rw [Finset.mem_singleton.1 hx]; exact hσ.1 i hi
    · intro i _ x hx; left; exact Finset.mem_singleton.1 hx
  obtain ⟨c1, c2, c3⟩ := downgradeCumulants_spec hph hac hS hN t.tensors _ cu hinit hlab (fun x hx σ hσ => hσ.2 x hx) hsep.active hcu
  -- the deltas
  have hapart : ∀ a ∈ t.tensors, ∀ b ∈ t.tensors, ActsAsDelta core a → b.cls = .cumulant → ¬ ActsAsDelta core b →
      ∀ i ∈ a.pair.indices, i ∉ b.pair.indices := by
    let Q : Tensor → Tensor → Prop := fun a b =>
        (ActsAsDelta core a → b.cls = .cumulant → ¬ ActsAsDelta core b → ∀ i ∈ a.pair.indices, i ∉ b.pair.indices) ∧
        (ActsAsDelta core b → a.cls = .cumulant → ¬ ActsAsDelta core a → ∀ i ∈ b.pair.indices, i ∉ a.pair.indices)
    have : Std.Symm Q := ⟨fun a b h => ⟨h.2, h.1⟩⟩
    have hQ : t.tensors.Pairwise Q := by
      refine hsep.apart.imp ?_
      intro a b hab
      refine ⟨fun h1 h2 _ => hab (Or.inl ⟨h1, Or.inr h2⟩), fun h1 h2 _ i hi hi' => ?_⟩
      exact hab (Or.inr ⟨Or.inr h2, h1⟩) i hi' hi
    have key := hQ.forall_of_forall (fun a _ => ⟨fun h _ h' => absurd h h', fun h _ h' => absurd h h'⟩)
    exact fun a ha b hb => (key ha hb).1
  have hdel : ∀ x ∈ cu.2, x.cls = .kronecker → ∀ i ∈ x.pair.indices, cu.1.repl i = i ∧ i ∉ t.diag := by
    intro x hx hk i hi
    obtain ⟨a, ha, hP, hQ, -⟩ := forall₂_mem c3 hx
    have hact := hQ.1 hk
    rw [hP] at hi
    refine ⟨c2 i fun b hb h1 h2 => hapart a ha b hb hact h1 h2 i hi, ?_⟩
    obtain ⟨d1, d2⟩ := hsep.diag a ha hact i hi
    intro hh
    rcases mem_diagonalOf.1 (hdiag hh) with hh | ⟨b, hb, hh⟩
    · exact d2 hh
    · exact d1 b hb hh
  have hpw : cu.2.Pairwise fun a b => a.cls = .kronecker → b.cls = .kronecker → ∀ i ∈ a.pair.indices, i ∉ b.pair.indices := by
    refine forall₂_pairwise_of ?_ c3 hsep.apart
    intro a b a' b' hab hab' hR hk hk' i hi
    rw [hab.1] at hi
    rw [hab'.1]
    have h1 := hab.2.1.1 hk
    have h2 := hab'.2.1.1 hk'
    refine hR (Or.inl ⟨h1, ?_⟩) i hi
    rcases h2 with h2 | h2
    · exact Or.inl h2
    · exact Or.inr h2.2.1
  obtain ⟨d1, d2, -, d4, d5⟩ := removeDeltas_spec hS hN cu.2 ⟨cu.1.repl, cu.1.next, fun i => {i}⟩ de c1.repl
    (fun x hx i hi => by
      obtain ⟨a, ha, hP, -⟩ := forall₂_mem c3 hx
      rw [hP] at hi; exact hlab a ha i hi) hdel hpw
    (fun x hx hk σ hσ u l hu hl => by
      obtain ⟨a, ha, hP⟩ := forall₂_mem c3 hx
      have hne := hσ.2 a ha
      rw [← hP.2.2.2 σ hσ.1] at hne
      by_contra hul
      apply hne
      simp only [Interp.tval, hk, hu, hl, List.map_cons, List.map_nil, hph.kron, if_neg hul]) hde
  -- the diagonal labels
  obtain ⟨e1, e2, e3⟩ := diagonalLoop_spec hS hord (ord.indices t.diag) (de.1.repl, de.1.next, keys) st d1
    (fun i _ => Finset.mem_union_left _ (c1.rd_self i))
    (fun σ hσ i hi x hx => by
      rcases Finset.mem_union.1 hx with hx | hx
      · exact c1.rd_dom σ hσ i hi x hx
      · rw [d2] at hx; rw [Finset.mem_singleton.1 hx]; exact hσ.1 i hi)
    (fun i hi x hx => by
      rw [hord.mem_indices] at hi
      rcases Finset.mem_union.1 hx with hx | hx
      · exact c1.rd_out i hi x hx
      · rw [d2] at hx; left; exact Finset.mem_singleton.1 hx)
    (fun i hi => hdiagS i ((hord.mem_indices _ _).1 hi)) hlo
  have hequal : ∀ x ∈ cu.2, x.cls = .kronecker → ∃ u l, x.upper.list = [u] ∧ x.lower.list = [l] ∧ st.1 u = st.1 l := by
    intro x hx hk
    obtain ⟨u, l, hu, hl, hul⟩ := d5 x hx hk
    have hidx := Tensor.indices_one hu hl
    refine ⟨u, l, hu, hl, ?_⟩
    have hout : ∀ i ∈ x.pair.indices, st.1 i = de.1.repl i := by
      intro i hi
      have h1 := (hdel x hx hk i hi).2
      obtain ⟨a, ha, hP, -⟩ := forall₂_mem c3 hx
      exact e2 i (hS (hlab a ha i (by rw [← hP]; exact hi))) (by rw [hord.mem_indices]; exact h1)
    rw [hout u (by simp [hidx]), hout l (by simp [hidx]), hul]
  -- the sum over the new labels
  have hpull := sum_pullback orb S st.1 (fun σ => I.pval σ t.tensors • I.opval σ t.sqOp) (fun σ τ h => I.summand_congr h) e1.sub
    (fun σ hσ hne => by
      have hNσ : N σ := by
        refine ⟨hσ, ?_⟩
        intro x hx
        have : I.pval σ t.tensors ≠ 0 := by
          intro h0; apply hne; simp only [h0, zero_smul]
        exact prod_ne_zero_mem this _ (List.mem_map_of_mem hx)
      exact ⟨fun i hi => e1.dom σ hNσ i hi, fun i hi j hj e => e1.eq σ hNσ i hi j hj e⟩)
  -- without the deltas
  have hrest : ∀ τ ∈ orb.assignments (S.image st.1), I.pval (fun i => extendTo τ (st.1 i)) t.tensors =
      I.pval (fun i => extendTo τ (st.1 i)) de.2 := by
    intro τ hτ
    rw [← pval_forall₂ c3 (fun i => extendTo τ (st.1 i))
      (fun i hi => e1.sub i hi _ (Orbitals.extend_in hτ (Finset.mem_image_of_mem _ hi))), d4]
    clear hpull hde d5 d4 hpw hdel c3 hcu
    revert hequal
    generalize cu.2 = L
    intro hequal
    unfold Interp.pval
    induction L with
    | nil => rfl
    | cons x L ih =>
      rw [List.map_cons, List.prod_cons, ih fun y hy => hequal y (by simp [hy])]
      by_cases hk : x.cls = .kronecker
      · obtain ⟨u, l, hu, hl, hul⟩ := hequal x (by simp) hk
        have : I.tval (fun i => extendTo τ (st.1 i)) x = 1 := by
          simp only [Interp.tval, hk, hu, hl, List.map_cons, List.map_nil, hph.kron, hul, if_true]
        rw [this, one_mul, List.filter_cons_of_neg (by simp [hk])]
      · rw [List.filter_cons_of_pos (by simp [hk]), List.map_cons, List.prod_cons]
  have hsub : ∀ x ∈ de.2, x ∈ t.tensors := by
    intro x hx
    rw [d4, List.mem_filter] at hx
    obtain ⟨a, ha, -, -, hP, -⟩ := forall₂_mem c3 hx.1
    rw [hP (by simpa using hx.2)]; exact ha
  have hval : I.value orb t.coeff t.tensors t.sqOp = algebraMap ℚ R t.coeff •
      ∑ τ ∈ orb.assignments (S.image st.1), I.pval (fun i => extendTo τ (st.1 i)) de.2 • I.opval (fun i => extendTo τ (st.1 i)) t.sqOp := by
    unfold Interp.value
    rw [← hSdef, hpull]
    congr 1
    exact Finset.sum_congr rfl fun τ hτ => by rw [hrest τ hτ]
  by_cases hv : (removeActive && de.2.any (allActiveAmplitude st.1)) = true
  · rw [if_pos hv] at h
    simp only [pure, Except.pure, Except.ok.injEq] at h
    subst h
    refine ⟨?_, ?_⟩
    · rw [hval]
      rw [Bool.and_eq_true, List.any_eq_true] at hv
      obtain ⟨hr, x, hx, hxa⟩ := hv
      simp only [allActiveAmplitude, Bool.and_eq_true, decide_eq_true_eq, List.all_eq_true] at hxa
      have hz : ∀ τ ∈ orb.assignments (S.image st.1), I.pval (fun i => extendTo τ (st.1 i)) de.2 = 0 := by
        intro τ hτ
        apply List.prod_eq_zero
        rw [List.mem_map]
        refine ⟨x, hx, ?_⟩
        unfold Interp.tval
        rw [hxa.1]
        apply hna hr
        intro o ho
        rw [← List.map_append, List.mem_map] at ho
        obtain ⟨i, hi, rfl⟩ := ho
        have h1 := hxa.2 i hi
        have h2 := Orbitals.extend_in hτ (Finset.mem_image_of_mem st.1 (hlab x (hsub x hx) i hi))
        have h3 := h2.1
        rw [h1] at h3
        revert h3
        generalize orb.elem _ = e
        revert e; decide
      rw [Finset.sum_eq_zero fun τ hτ => by rw [hz τ hτ, zero_smul], smul_zero]
      simp [Interp.value]
    · simp [labelsOf, IndicesPair.void]
  · rw [if_neg hv] at h
    cases hts : replaceTensors (lookupIn st.2.2 st.1) de.2 with
    | error e => rw [hts] at h; simp at h
    | ok ts =>
      rw [hts] at h
      simp only [pure, Except.pure, Except.ok.injEq] at h
      subst h
      obtain ⟨rfl, -⟩ := replaceSqOp_ok (realizes_lookupIn _ _) hop
      obtain ⟨-, rfl, -⟩ := replaceTensors_ok (realizes_lookupIn _ _) hts
      have hlabels : labelsOf de.2 t.sqOp = S := by
        apply Finset.Subset.antisymm
        · intro i hi
          rw [mem_labelsOf, mem_labelList] at hi
          rcases hi with hi | ⟨x, hx, hi⟩
          · exact mem_labelsOf.2 (mem_labelList.2 (Or.inl hi))
          · exact hlab x (hsub x hx) i hi
        · intro i hi
          rw [mem_labelsOf]
          have h2 := hw.two i hi
          -- a label occurs at most once in the deltas
          have hnd : ((cu.2.filter fun x => decide (x.cls = .kronecker)).flatMap fun x => x.upper.list ++ x.lower.list).Nodup := by
            rw [List.nodup_flatMap]
            constructor
            · intro x hx
              rw [List.mem_filter, decide_eq_true_eq] at hx
              obtain ⟨u, l, hu, hl, -⟩ := hequal x hx.1 hx.2
              obtain ⟨a, ha, hP, hQ, -⟩ := forall₂_mem c3 hx.1
              have hidx := Tensor.indices_one hu hl
              have := (hsep.diag a ha (hQ.1 hx.2) u (by
                show u ∈ a.pair.indices
                rw [← hP, hidx]; simp)).1 a ha
              rw [hu, hl]
              have hne : u ≠ l := by
                rintro rfl
                apply this
                constructor
                · show u ∈ a.pair.upper.list
                  rw [← hP]; show u ∈ x.upper.list; rw [hu]; simp
                · show u ∈ a.pair.lower.list
                  rw [← hP]; show u ∈ x.lower.list; rw [hl]; simp
              simp [hne]
            · rw [List.pairwise_filter]
              refine hpw.imp ?_
              intro a b hab hka hkb
              simp only [decide_eq_true_eq] at hka hkb
              exact hab hka hkb
          have hperm : (labelList t.tensors t.sqOp).Perm (labelList de.2 t.sqOp ++
              (cu.2.filter fun x => decide (x.cls = .kronecker)).flatMap fun x => x.upper.list ++ x.lower.list) := by
            unfold labelList
            rw [← flatMap_labels_forall₂ c3, List.append_assoc (t.sqOp.upper.list ++ t.sqOp.lower.list), ← List.flatMap_append]
            refine List.Perm.append_left _ (List.Perm.flatMap_right _ ?_)
            rw [d4]
            have := List.filter_append_perm (fun x : Tensor => decide (x.cls ≠ .kronecker)) cu.2
            refine this.symm.trans ?_
            simp
          rw [hperm.count_eq, List.count_append] at h2
          have h3 := List.nodup_iff_count_le_one.1 hnd i
          rw [← List.count_pos_iff]
          omega
      refine ⟨?_, ?_⟩
      · rw [hval]
        unfold Interp.value
        rw [labelsOf_relabel, hlabels]
        congr 1
        exact Finset.sum_congr rfl fun τ _ => by rw [I.pval_relabel, I.opval_relabel]
      · rw [labelsOf_relabel, hlabels]
        exact Finset.image_subset_image (hS.trans e3)

end

end Dsrg
