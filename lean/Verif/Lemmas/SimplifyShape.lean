import Verif.Lemmas.Simplify
import Mathlib.Data.List.Count
import Mathlib.Data.List.Nodup

/-!
What `simplify` does to the labels of a term, apart from values: which labels are merged and which stay apart.
-/

namespace Dsrg

/-- The replacement map merges only labels related by `E`, and the counters lie above everything used so far. -/
structure Apart (keys : Finset Index) (E : Index → Index → Prop) (ρ : Index → Index) (next : Space → Nat) : Prop where
  eq : ∀ i ∈ keys, ∀ j ∈ keys, ρ i = ρ j → E i j
  fresh : ∀ i ∈ keys, (ρ i).number < next (ρ i).space
  base : ∀ i ∈ keys, i.number < next i.space

variable {keys : Finset Index} {E : Index → Index → Prop}

theorem Apart.update_fresh {ρ : Index → Index} {next : Space → Nat} (h : Apart keys E ρ next) (hE : Equivalence E) (s : Space) (i : Index) :
    Apart keys E (Function.update ρ i (generateNextIndex s next).1) (generateNextIndex s next).2 := by
  refine ⟨?_, ?_, ?_⟩
  · intro j hj k hk e
    by_cases hji : j = i
    · by_cases hki : k = i
      · rw [hji, hki]; exact hE.refl _
      · subst hji
        rw [Function.update_self, Function.update_of_ne hki] at e
        exact absurd e.symm (ne_generateNextIndex (h.fresh k hk))
    · by_cases hki : k = i
      · subst hki
        rw [Function.update_self, Function.update_of_ne hji] at e
        exact absurd e (ne_generateNextIndex (h.fresh j hj))
      · rw [Function.update_of_ne hji, Function.update_of_ne hki] at e
        exact h.eq j hj k hk e
  · intro j hj
    by_cases hji : j = i
    · subst hji; rw [Function.update_self]; exact generateNextIndex_lt _ _
    · rw [Function.update_of_ne hji]; exact lt_of_lt_of_le (h.fresh j hj) (generateNextIndex_mono _ _ _)
  · intro j hj
    exact lt_of_lt_of_le (h.base j hj) (generateNextIndex_mono _ _ _)

theorem Apart.update_two {ρ : Index → Index} {next : Space → Nat} (h : Apart keys E ρ next) (hE : Equivalence E) (s : Space) {i j : Index}
    (hij : E i j) :
    Apart keys E (Function.update (Function.update ρ i (generateNextIndex s next).1) j (generateNextIndex s next).1)
      (generateNextIndex s next).2 := by
  have key : ∀ k, Function.update (Function.update ρ i (generateNextIndex s next).1) j (generateNextIndex s next).1 k =
      if k = i ∨ k = j then (generateNextIndex s next).1 else ρ k := by
    intro k
    simp only [Function.update_apply]
    by_cases a : k = j <;> by_cases b : k = i <;> simp [a, b]
  refine ⟨?_, ?_, ?_⟩
  · intro k hk m hm e
    rw [key, key] at e
    split_ifs at e with hc hd hd
    · rcases hc with rfl | rfl <;> rcases hd with rfl | rfl
      · exact hE.refl _
      · exact hij
      · exact hE.symm hij
      · exact hE.refl _
    · exact absurd e.symm (ne_generateNextIndex (h.fresh m hm))
    · exact absurd e (ne_generateNextIndex (h.fresh k hk))
    · exact h.eq k hk m hm e
  · intro k hk
    rw [key]
    split_ifs with hc
    · exact generateNextIndex_lt _ _
    · exact lt_of_lt_of_le (h.fresh k hk) (generateNextIndex_mono _ _ _)
  · intro k hk
    exact lt_of_lt_of_le (h.base k hk) (generateNextIndex_mono _ _ _)

theorem Apart.update_old {ρ : Index → Index} {next : Space → Nat} (h : Apart keys E ρ next) (hE : Equivalence E)
    {i j : Index} (hj : j ∈ keys) (hρ : ρ j = j) (hij : E i j) : Apart keys E (Function.update ρ i j) next := by
  refine ⟨?_, ?_, h.base⟩
  · intro k hk m hm e
    simp only [Function.update_apply] at e
    split_ifs at e with hc hd hd
    · rw [hc, hd]; exact hE.refl _
    · rw [hc]; exact hE.trans hij (h.eq j hj m hm (by rw [hρ]; exact e))
    · rw [hd]; exact hE.trans (h.eq k hk j hj (by rw [hρ]; exact e)) (hE.symm hij)
    · exact h.eq k hk m hm e
  · intro k hk
    rw [Function.update_apply]
    split_ifs with hc
    · exact h.base j hj
    · exact h.fresh k hk

/-- Assigning fresh labels to a list of labels. -/
theorem Apart.foldl_fresh (hE : Equivalence E) {diag : Finset Index} (sp : Index → Space) :
    ∀ (l : List Index) (st : ReplState), Apart keys E st.repl st.next →
      let r := l.foldl (fun st i => st.assignFresh diag (sp i) i) st
      Apart keys E r.repl r.next ∧ (∀ i, i ∉ l → r.repl i = st.repl i ∧ r.rdiag i = st.rdiag i) ∧
        ∀ i ∈ l, (r.repl i).space = sp i := by
  intro l
  induction l with
  | nil => intro st h; exact ⟨h, fun _ _ => ⟨rfl, rfl⟩, by simp⟩
  | cons a l ih =>
    intro st h
    have ha : Apart keys E (st.assignFresh diag (sp a) a).repl (st.assignFresh diag (sp a) a).next := h.update_fresh hE (sp a) a
    obtain ⟨g1, g2, g3⟩ := ih _ ha
    have hoff : ∀ i, i ≠ a → (st.assignFresh diag (sp a) a).repl i = st.repl i ∧ (st.assignFresh diag (sp a) a).rdiag i = st.rdiag i := by
      intro i hi
      unfold ReplState.assignFresh ReplState.assign
      simp only []
      refine ⟨Function.update_of_ne hi _ _, ?_⟩
      split_ifs
      · exact Function.update_of_ne hi _ _
      · rfl
    have hon : ((st.assignFresh diag (sp a) a).repl a).space = sp a := by
      unfold ReplState.assignFresh ReplState.assign
      simp only [Function.update_self]
      rfl
    refine ⟨g1, ?_, ?_⟩
    · intro i hi
      rw [List.mem_cons, not_or] at hi
      rw [List.foldl_cons, (g2 i hi.2).1, (g2 i hi.2).2]
      exact hoff i hi.1
    · intro i hi
      rw [List.foldl_cons]
      by_cases hil : i ∈ l
      · exact g3 i hil
      · rw [(g2 i hil).1]
        obtain rfl : i = a := by simpa [hil] using hi
        exact hon

/-- Where the labels of a cumulant that stays are sent. -/
def Lowered (t : Tensor) (j : Index) : Prop :=
  (t.upper.list.length ≠ 1 → j.space.kind = .a) ∧ (t.upper.list.length = 1 → j.space.kind = .h ∨ j.space.kind = .a)

/-- How a tensor comes out of the pass over the cumulants. -/
def Stepped (t t' : Tensor) : Prop :=
  t'.pair = t.pair ∧ (t'.cls = .kronecker ↔ ActsAsDelta true t) ∧ (t'.cls ≠ .kronecker → t' = t)

theorem downgrade_density_low (u l s : Space) (h : downgradeDensity .v .h u l = some s) (hs : s.kind ≠ .c) : s.kind = .h ∨ s.kind = .a := by
  revert u l s; decide +kernel

theorem downgradeStep_shape (hE : Equivalence E) {diag : Finset Index} {st st' : ReplState} {t t' : Tensor}
    (hst : Apart keys E st.repl st.next) (h : downgradeStep true diag st t = .ok (st', t')) :
    Apart keys E st'.repl st'.next ∧
      (∀ i, (t.cls = .cumulant → ¬ ActsAsDelta true t → i ∉ t.pair.indices) → st'.repl i = st.repl i ∧ st'.rdiag i = st.rdiag i) ∧
      (t.cls = .cumulant → ¬ ActsAsDelta true t → ∀ i ∈ t.pair.indices, Lowered t (st'.repl i)) ∧ Stepped t t' := by
  unfold downgradeStep at h
  by_cases hc : t.cls = .cumulant
  · rw [if_pos hc] at h
    have hnk : t.cls ≠ .kronecker := by rw [hc]; decide
    unfold IndicesPair.nBody at h
    by_cases hnb : t.pair.nLower = t.pair.nUpper
    · rw [if_neg (by simpa using hnb)] at h
      simp only [bind, Except.bind, pure, Except.pure] at h
      by_cases hn1 : t.pair.nLower = 1
      · rw [if_neg (by simpa using hn1)] at h
        have hu1 : t.upper.list.length = 1 := by
          have : t.pair.nUpper = 1 := by rw [← hnb]; exact hn1
          exact this
        obtain ⟨u, hu⟩ := List.length_eq_one_iff.1 hu1
        obtain ⟨l, hl⟩ := List.length_eq_one_iff.1 (show t.lower.list.length = 1 from hn1)
        have hd : t.downgradeIndices = .ok (downgradeDensity .v .h u.space l.space) := by
          unfold Tensor.downgradeIndices; rw [hc, hu, hl]
        rw [hd] at h
        have hidx := Tensor.indices_one hu hl
        cases hs : downgradeDensity .v .h u.space l.space with
        | none => rw [hs] at h; simp at h
        | some s =>
          rw [hs] at h
          simp only [] at h
          by_cases hk : s.kind = .c ∧ True
          · rw [if_pos hk] at h
            cases hm : Tensor.make .kronecker t.upper t.lower ['K'] (-1) with
            | error e => rw [hm] at h; simp at h
            | ok k =>
              rw [hm] at h
              simp only [Except.ok.injEq, Prod.mk.injEq] at h
              obtain ⟨rfl, rfl⟩ := h
              obtain ⟨rfl, -⟩ := Tensor.make_eq hm
              obtain ⟨hcc, hb⟩ := downgrade_density_core _ _ _ hs hk.1
              have hacts : ActsAsDelta true t := Or.inr ⟨rfl, hc, u, l, hu, hl, hcc⟩
              exact ⟨hst, fun _ _ => ⟨rfl, rfl⟩, fun _ hh => absurd hacts hh, rfl, ⟨fun _ => hacts, fun _ => rfl⟩, fun hh => absurd rfl hh⟩
          · rw [if_neg hk] at h
            simp only [Except.ok.injEq, Prod.mk.injEq] at h
            obtain ⟨rfl, rfl⟩ := h
            have hkc : s.kind ≠ .c := fun e => hk ⟨e, trivial⟩
            have hha := downgrade_density_low _ _ _ hs hkc
            have hnd : ¬ ActsAsDelta true t := by
              rintro (hh | ⟨hcore, -, u', l', hu', hl', hcc⟩)
              · exact hnk hh
              · rw [hu] at hu'; rw [hl] at hl'
                obtain rfl : u = u' := by simpa using hu'
                obtain rfl : l = l' := by simpa using hl'
                exact downgrade_density_core' _ _ _ hs hkc hcc
            obtain ⟨g1, g2, g5⟩ := Apart.foldl_fresh hE (diag := diag) (fun _ => s) t.upper.list st hst
            obtain ⟨g3, g4, g6⟩ := Apart.foldl_fresh hE (diag := diag) (fun _ => s) t.lower.list _ g1
            refine ⟨g3, ?_, ?_, rfl, ⟨fun hh => absurd hh hnk, fun hh => absurd hh hnd⟩, fun _ => rfl⟩
            · intro i hi
              have := hi hc hnd
              simp only [IndicesPair.indices, List.mem_append, not_or] at this
              rw [(g4 i this.2).1, (g4 i this.2).2]
              exact g2 i this.1
            · intro _ _ i hi
              refine ⟨fun e => absurd hu1 e, fun _ => ?_⟩
              by_cases hil : i ∈ t.lower.list
              · rw [g6 i hil]; exact hha
              · rw [(g4 i hil).1, g5 i ((List.mem_append.1 hi).resolve_right hil)]; exact hha
      · rw [if_pos (by simpa using hn1)] at h
        simp only [Except.ok.injEq, Prod.mk.injEq] at h
        obtain ⟨rfl, rfl⟩ := h
        have hlen : t.upper.list.length ≠ 1 := by
          intro e; apply hn1; rw [hnb]; exact e
        have hnd : ¬ ActsAsDelta true t := by
          rintro (hh | ⟨hcore, -, u', l', hu', hl', hcc⟩)
          · exact hnk hh
          · rw [hu'] at hlen; simp at hlen
        obtain ⟨g1, g2, g5⟩ := Apart.foldl_fresh hE (diag := diag) activeOf t.upper.list st hst
        obtain ⟨g3, g4, g6⟩ := Apart.foldl_fresh hE (diag := diag) activeOf t.lower.list _ g1
        refine ⟨g3, ?_, ?_, rfl, ⟨fun hh => absurd hh hnk, fun hh => absurd hh hnd⟩, fun _ => rfl⟩
        · intro i hi
          have := hi hc hnd
          simp only [IndicesPair.indices, List.mem_append, not_or] at this
          rw [(g4 i this.2).1, (g4 i this.2).2]
          exact g2 i this.1
        · intro _ _ i hi
          refine ⟨fun _ => ?_, fun e => absurd e hlen⟩
          by_cases hil : i ∈ t.lower.list
          · rw [g6 i hil]; rfl
          · rw [(g4 i hil).1, g5 i ((List.mem_append.1 hi).resolve_right hil)]; rfl
    · rw [if_pos hnb] at h
      simp [bind, Except.bind] at h
  · rw [if_neg hc] at h
    simp only [pure, Except.pure, Except.ok.injEq, Prod.mk.injEq] at h
    obtain ⟨rfl, rfl⟩ := h
    refine ⟨hst, fun _ _ => ⟨rfl, rfl⟩, fun hh => absurd hh hc, rfl, ⟨fun hh => Or.inl hh, ?_⟩, fun _ => rfl⟩
    rintro (hh | hh)
    · exact hh
    · exact absurd hh.2.1 hc

theorem downgradeCumulants_shape (hE : Equivalence E) {diag : Finset Index} :
    ∀ (ts : List Tensor) (st : ReplState) (r : ReplState × List Tensor), Apart keys E st.repl st.next →
      (ts.Pairwise fun a b => a.cls = .cumulant → b.cls = .cumulant → NoCommonLabel a b) →
      downgradeCumulants true diag st ts = .ok r →
      Apart keys E r.1.repl r.1.next ∧
        (∀ i, (∀ t ∈ ts, t.cls = .cumulant → ¬ ActsAsDelta true t → i ∉ t.pair.indices) → r.1.repl i = st.repl i ∧ r.1.rdiag i = st.rdiag i) ∧
        (∀ t ∈ ts, t.cls = .cumulant → ¬ ActsAsDelta true t → ∀ i ∈ t.pair.indices, Lowered t (r.1.repl i)) ∧
        List.Forall₂ Stepped ts r.2 := by
  intro ts
  induction ts with
  | nil =>
    intro st r hst _ h
    simp only [downgradeCumulants, pure, Except.pure, Except.ok.injEq] at h
    subst h
    exact ⟨hst, fun _ _ => ⟨rfl, rfl⟩, by simp, .nil⟩
  | cons t ts ih =>
    intro st r hst hpw h
    rw [List.pairwise_cons] at hpw
    simp only [downgradeCumulants, bind, Except.bind] at h
    cases hs : downgradeStep true diag st t with
    | error e => rw [hs] at h; simp at h
    | ok q =>
      rw [hs] at h
      simp only [] at h
      cases hr : downgradeCumulants true diag q.1 ts with
      | error e => rw [hr] at h; simp at h
      | ok qs =>
        rw [hr] at h
        simp only [pure, Except.pure, Except.ok.injEq] at h
        subst h
        obtain ⟨a1, a2, a3, a4⟩ := downgradeStep_shape hE hst hs
        obtain ⟨b1, b2, b3, b4⟩ := ih _ _ a1 hpw.2 hr
        refine ⟨b1, ?_, ?_, .cons a4 b4⟩
        · intro i hi
          rw [(b2 i fun t ht => hi t (by simp [ht])).1, (b2 i fun t ht => hi t (by simp [ht])).2]
          exact a2 i (hi t (by simp))
        · intro x hx hc hnd i hi
          rcases List.mem_cons.1 hx with rfl | hx
          · rw [(b2 i fun y hy hyc _ => hpw.1 y hy hc hyc i hi).1]
            exact a3 hc hnd i hi
          · exact b3 x hx hc hnd i hi

theorem deltaStep_shape (hE : Equivalence E) {diag : Finset Index} {st st' : ReplState}
    {t : Tensor} (hk : t.cls = .kronecker) (hst : Apart keys E st.repl st.next) (hSt : ∀ i ∈ t.pair.indices, i ∈ keys)
    (hid : ∀ i ∈ t.pair.indices, st.repl i = i) (hdg : ∀ i ∈ t.pair.indices, i ∉ diag)
    (heq : ∀ i ∈ t.pair.indices, ∀ j ∈ t.pair.indices, E i j)
    (h : deltaStep diag st t = .ok st') :
    Apart keys E st'.repl st'.next ∧ st'.rdiag = st.rdiag ∧ (∀ i, i ∉ t.pair.indices → st'.repl i = st.repl i) ∧
      ∃ u l, t.upper.list = [u] ∧ t.lower.list = [l] ∧ st'.repl u = st'.repl l := by
  unfold deltaStep at h
  unfold Tensor.downgradeIndices at h
  rw [hk] at h
  rcases hu : t.upper.list with _ | ⟨u, _ | ⟨u', us⟩⟩
  · simp [hu, bind, Except.bind] at h
  swap
  · simp [hu, bind, Except.bind] at h
  rcases hl : t.lower.list with _ | ⟨l, _ | ⟨l', ls⟩⟩
  · simp [hu, hl, bind, Except.bind] at h
  swap
  · simp [hu, hl, bind, Except.bind] at h
  have hidx := Tensor.indices_one hu hl
  simp only [hu, hl, bind, Except.bind] at h
  cases hd : downgradeDelta u l with
  | none => rw [hd] at h; simp at h
  | some s0 =>
    rw [hd] at h
    simp only [] at h
    have hsort : ∃ a b, sortTwo u l = (a, b) ∧ ((a = u ∧ b = l) ∨ (a = l ∧ b = u)) := by
      unfold sortTwo
      by_cases hlt : l.pyLt u = true
      · simp only [hlt, if_true]
        exact ⟨l, u, rfl, Or.inr ⟨rfl, rfl⟩⟩
      · simp only [hlt]
        exact ⟨u, l, rfl, Or.inl ⟨rfl, rfl⟩⟩
    obtain ⟨a, b, hab, hcase⟩ := hsort
    rw [hab] at h
    simp only [] at h
    have hmem : ∀ i, i ∈ t.pair.indices ↔ i = a ∨ i = b := by
      intro i; rw [hidx]; rcases hcase with ⟨rfl, rfl⟩ | ⟨rfl, rfl⟩ <;> simp [or_comm]
    have ha := (hmem a).2 (Or.inl rfl)
    have hb := (hmem b).2 (Or.inr rfl)
    have hda := hdg a ha
    have hdb := hdg b hb
    have hfin : ∀ f : Index → Index, f a = f b → ∃ u' l', [u] = [u'] ∧ [l] = [l'] ∧ f u' = f l' := by
      intro f hf
      refine ⟨u, l, rfl, rfl, ?_⟩
      rcases hcase with ⟨rfl, rfl⟩ | ⟨rfl, rfl⟩
      · exact hf
      · exact hf.symm
    by_cases hph : (a.space.kind, b.space.kind) = (Kind.p, Kind.h)
    · rw [if_pos hph] at h
      simp only [pure, Except.pure, Except.ok.injEq] at h
      subst h
      refine ⟨?_, ?_, ?_, ?_⟩
      · exact hst.update_two hE _ (heq a ha b hb)
      · simp [ReplState.assign, hda, hdb]
      · intro i hi
        rw [hmem, not_or] at hi
        simp [ReplState.assign, Function.update_apply, hi.1, hi.2]
      · apply hfin
        simp [ReplState.assign, Function.update_apply]
    · rw [if_neg hph] at h
      simp only [pure, Except.pure, Except.ok.injEq] at h
      subst h
      have hidb := hid b hb
      refine ⟨?_, ?_, ?_, ?_⟩
      · exact hst.update_old hE (hSt b hb) hidb (heq a ha b hb)
      · simp [ReplState.assign, hda]
      · intro i hi
        rw [hmem, not_or] at hi
        simp [ReplState.assign, Function.update_apply, hi.1]
      · apply hfin
        by_cases e : b = a
        · rw [e]
        · simp [ReplState.assign, Function.update_apply, e, hidb]

theorem removeDeltas_shape (hE : Equivalence E) {diag : Finset Index} :
    ∀ (ts : List Tensor) (st : ReplState) (r : ReplState × List Tensor), Apart keys E st.repl st.next →
      (∀ t ∈ ts, ∀ i ∈ t.pair.indices, i ∈ keys) →
      (∀ t ∈ ts, t.cls = .kronecker → ∀ i ∈ t.pair.indices, st.repl i = i ∧ i ∉ diag) →
      (ts.Pairwise fun a b => a.cls = .kronecker → b.cls = .kronecker → ∀ i ∈ a.pair.indices, i ∉ b.pair.indices) →
      (∀ t ∈ ts, t.cls = .kronecker → ∀ i ∈ t.pair.indices, ∀ j ∈ t.pair.indices, E i j) →
      removeDeltas diag st ts = .ok r →
      Apart keys E r.1.repl r.1.next ∧ r.1.rdiag = st.rdiag ∧
        (∀ i, (∀ t ∈ ts, t.cls = .kronecker → i ∉ t.pair.indices) → r.1.repl i = st.repl i) ∧
        r.2 = ts.filter (fun t => decide (t.cls ≠ .kronecker)) ∧
        ∀ t ∈ ts, t.cls = .kronecker → ∃ u l, t.upper.list = [u] ∧ t.lower.list = [l] ∧ r.1.repl u = r.1.repl l := by
  intro ts
  induction ts with
  | nil =>
    intro st r hst _ _ _ _ h
    simp only [removeDeltas, pure, Except.pure, Except.ok.injEq] at h
    subst h
    exact ⟨hst, rfl, fun _ _ => rfl, rfl, by simp⟩
  | cons t ts ih =>
    intro st r hst h1 h2 h3 h4 h
    rw [List.pairwise_cons] at h3
    simp only [removeDeltas] at h
    by_cases hk : t.cls = .kronecker
    · rw [if_pos hk] at h
      simp only [bind, Except.bind] at h
      cases hs : deltaStep diag st t with
      | error e => rw [hs] at h; simp at h
      | ok st' =>
        rw [hs] at h
        simp only [] at h
        obtain ⟨a1, a2, a3, u, l, hu, hl, a4⟩ := deltaStep_shape hE hk hst (h1 t (by simp)) (fun i hi => (h2 t (by simp) hk i hi).1)
          (fun i hi => (h2 t (by simp) hk i hi).2) (h4 t (by simp) hk) hs
        obtain ⟨b1, b2, b3, b4, b5⟩ := ih st' r a1 (fun t ht => h1 t (by simp [ht]))
          (fun t' ht' hk' i hi => by
            refine ⟨?_, (h2 t' (by simp [ht']) hk' i hi).2⟩
            rw [a3 i fun hh => h3.1 t' ht' hk hk' i hh hi]
            exact (h2 t' (by simp [ht']) hk' i hi).1)
          h3.2 (fun t ht => h4 t (by simp [ht])) h
        refine ⟨b1, b2.trans a2, ?_, ?_, ?_⟩
        · intro i hi
          rw [b3 i fun t ht => hi t (by simp [ht]), a3 i (hi t (by simp) hk)]
        · rw [b4]; simp [hk]
        · intro t' ht' hk'
          rcases List.mem_cons.1 ht' with rfl | ht'
          · refine ⟨u, l, hu, hl, ?_⟩
            have hidx := Tensor.indices_one hu hl
            rw [b3 u fun t'' ht'' hk'' => h3.1 t'' ht'' hk hk'' u (by simp [hidx]),
              b3 l fun t'' ht'' hk'' => h3.1 t'' ht'' hk hk'' l (by simp [hidx])]
            exact a4
          · exact b5 t' ht' hk'
    · rw [if_neg hk] at h
      simp only [bind, Except.bind] at h
      cases hr : removeDeltas diag st ts with
      | error e => rw [hr] at h; simp at h
      | ok q =>
        rw [hr] at h
        simp only [pure, Except.pure, Except.ok.injEq] at h
        subst h
        obtain ⟨b1, b2, b3, b4, b5⟩ := ih st q hst (fun t ht => h1 t (by simp [ht])) (fun t ht => h2 t (by simp [ht])) h3.2
          (fun t ht => h4 t (by simp [ht])) hr
        refine ⟨b1, b2, ?_, ?_, ?_⟩
        · intro i hi; exact b3 i fun t ht => hi t (by simp [ht])
        · simp [hk, b4]
        · intro t' ht' hk'
          rcases List.mem_cons.1 ht' with rfl | ht'
          · exact absurd hk' hk
          · exact b5 t' ht' hk'

theorem diagonalLoop_shape (hE : Equivalence E) {ord : SetOrder} {rd : Index → Finset Index} :
    ∀ (L : List Index) (q r : (Index → Index) × (Space → Nat) × Finset Index), Apart keys E q.1 q.2.1 →
      (∀ i ∈ L, rd i = {i}) → diagonalLoop ord rd L q = .ok r →
      Apart keys E r.1 r.2.1 ∧ (∀ i, i ∉ L → r.1 i = q.1 i) := by
  intro L
  induction L with
  | nil =>
    intro q r hst _ h
    simp only [diagonalLoop, pure, Except.pure, Except.ok.injEq] at h
    subst h
    exact ⟨hst, fun _ _ => rfl⟩
  | cons i L ih =>
    intro q r hst h1 h
    obtain ⟨repl, next, ks⟩ := q
    simp only [diagonalLoop, bind, Except.bind] at h
    cases hs : findSpaceLabel ((rd i).inf fun j => j.space.relation)
        ((ord.spaces ((rd i).inf fun j => j.space.relation)).headD ⟨.g, false⟩) with
    | error e => rw [hs] at h; simp at h
    | ok so =>
      rw [hs] at h
      cases so with
      | none => simp at h
      | some s =>
        simp only [] at h
        have hag : (fun j => if j = i ∨ j ∈ rd i then (generateNextIndex s next).1 else repl j) =
            Function.update repl i (generateNextIndex s next).1 := by
          funext k
          rw [Function.update_apply, h1 i (by simp)]
          simp
        rw [hag] at h
        obtain ⟨b1, b2⟩ := ih _ r (hst.update_fresh hE s i) (fun j hj => h1 j (by simp [hj])) h
        refine ⟨b1, ?_⟩
        intro k hkL
        rw [List.mem_cons, not_or] at hkL
        rw [b2 k hkL.2]
        exact Function.update_of_ne hkL.1 _ _

end Dsrg
