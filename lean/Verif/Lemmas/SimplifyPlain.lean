import Verif.Lemmas.CanonSame
import Verif.Lemmas.SimplifyTotal

/-!
`simplify` of a term without Kronecker deltas and diagonal labels, whose cumulants have active labels: other names of the labels at most.
-/

namespace Dsrg

/-- Every label has a name of its own in its own space, below the counters. -/
structure PlainRepl (S : Finset Index) (st : ReplState) : Prop where
  space : ∀ i ∈ S, (st.repl i).space = i.space
  below : ∀ i ∈ S, (st.repl i).number < st.next i.space
  inj : ∀ i ∈ S, ∀ j ∈ S, st.repl i = st.repl j → i = j

theorem PlainRepl.fresh {S : Finset Index} {st : ReplState} (h : PlainRepl S st) (diag : Finset Index) {i : Index} {s : Space} (hs : s = i.space) :
    PlainRepl S (st.assignFresh diag s i) := by
  subst hs
  unfold ReplState.assignFresh generateNextIndex ReplState.assign
  refine ⟨?_, ?_, ?_⟩
  · intro j hj
    simp only [Function.update_apply]
    split_ifs with e
    · rw [e]
    · exact h.space j hj
  · intro j hj
    simp only [Function.update_apply]
    by_cases e : j = i
    · subst e; simp
    · rw [if_neg e]
      have := h.below j hj
      by_cases e2 : j.space = i.space
      · rw [if_pos e2, ← e2]; omega
      · rw [if_neg e2]; exact this
  · have key : ∀ j ∈ S, st.repl j ≠ ⟨i.space, st.next i.space⟩ := by
      intro j hj e
      have h1 := h.space j hj
      have h2 := h.below j hj
      rw [e] at h1 h2
      simp only [] at h1 h2
      rw [h1] at h2
      exact lt_irrefl _ h2
    intro j hj k hk
    simp only [Function.update_apply]
    split_ifs with e1 e2 e2
    · intro _; rw [e1, e2]
    · intro e; exact absurd e.symm (key k hk)
    · intro e; exact absurd e (key j hj)
    · exact h.inj j hj k hk

theorem PlainRepl.foldl {S diag : Finset Index} {g : Index → Space} : ∀ (l : List Index) {st : ReplState}, PlainRepl S st → (∀ i ∈ l, g i = i.space) →
    PlainRepl S (l.foldl (fun st i => st.assignFresh diag (g i) i) st)
  | [], _, h, _ => h
  | i :: l, _, h, hl => PlainRepl.foldl l (h.fresh diag (hl i (by simp))) fun j hj => hl j (by simp [hj])

theorem downgradeDensity_active {u l s : Space} (hu : u.kind = .a) (hl : l.kind = .a) (h : downgradeDensity .v .h u l = some s) : u = s ∧ l = s := by
  obtain ⟨ku, bu⟩ := u
  obtain ⟨kl, bl⟩ := l
  simp only at hu hl
  subst hu hl
  revert h
  obtain ⟨ks, bs⟩ := s
  revert bu bl ks bs
  decide +kernel

theorem downgradeStep_plain {S diag : Finset Index} {core : Bool} {st : ReplState} {x : Tensor} {r : ReplState × Tensor}
    (hx : x.cls = .cumulant → ∀ i ∈ x.pair.indices, i.space.kind = .a) (hst : PlainRepl S st) (h : downgradeStep core diag st x = .ok r) :
    PlainRepl S r.1 ∧ r.2 = x := by
  unfold downgradeStep at h
  by_cases hc : x.cls = .cumulant
  · have ha := hx hc
    have hau : ∀ i ∈ x.upper.list, i.space.kind = .a := fun i hi => ha i (List.mem_append_left _ hi)
    have hal : ∀ i ∈ x.lower.list, i.space.kind = .a := fun i hi => ha i (List.mem_append_right _ hi)
    rw [if_pos hc] at h
    simp only [bind, Except.bind, pure, Except.pure] at h
    cases hn : x.pair.nBody with
    | error e => rw [hn] at h; simp at h
    | ok n =>
      rw [hn] at h
      simp only [] at h
      have hact : ∀ i : Index, i.space.kind = .a → activeOf i = i.space := by
        intro i hi
        unfold activeOf Index.isBeta
        rw [← hi]
      by_cases hn1 : n ≠ 1
      · rw [if_pos hn1] at h
        simp only [Except.ok.injEq] at h
        subst h
        exact ⟨(hst.foldl (g := activeOf) _ fun i hi => hact i (hau i hi)).foldl (g := activeOf) _ fun i hi => hact i (hal i hi), rfl⟩
      · rw [if_neg hn1] at h
        cases hd : x.downgradeIndices with
        | error e => rw [hd] at h; simp at h
        | ok o =>
          rw [hd] at h
          cases o with
          | none => simp at h
          | some s =>
            simp only [] at h
            have hsp : (∀ i ∈ x.upper.list, s = i.space) ∧ ∀ i ∈ x.lower.list, s = i.space := by
              unfold Tensor.downgradeIndices at hd
              rw [hc] at hd
              rcases hu : x.upper.list with _ | ⟨u, _ | ⟨u', us⟩⟩
              · simp [hu] at hd
              swap
              · simp [hu] at hd
              rcases hl : x.lower.list with _ | ⟨l, _ | ⟨l', ls⟩⟩
              · simp [hu, hl] at hd
              swap
              · simp [hu, hl] at hd
              rw [hu, hl] at hd
              simp only [Except.ok.injEq] at hd
              obtain ⟨e1, e2⟩ := downgradeDensity_active (hau u (by simp [hu])) (hal l (by simp [hl])) hd
              exact ⟨by simp [e1], by simp [e2]⟩
            have hk : ¬ (s.kind = .c ∧ core = true) := by
              rintro ⟨hk, -⟩
              unfold Tensor.downgradeIndices at hd
              rw [hc] at hd
              rcases hu : x.upper.list with _ | ⟨u, us⟩
              · simp [hu] at hd
              · have := hau u (by simp [hu])
                rw [← hsp.1 u (by simp [hu]), hk] at this
                cases this
            rw [if_neg hk] at h
            simp only [Except.ok.injEq] at h
            subst h
            exact ⟨(hst.foldl (g := fun _ => s) _ hsp.1).foldl (g := fun _ => s) _ hsp.2, rfl⟩
  · rw [if_neg hc] at h
    simp only [pure, Except.pure, Except.ok.injEq] at h
    subst h
    exact ⟨hst, rfl⟩

theorem downgradeCumulants_plain {S diag : Finset Index} {core : Bool} : ∀ (ts : List Tensor) {st : ReplState} {r : ReplState × List Tensor},
    (∀ x ∈ ts, x.cls = .cumulant → ∀ i ∈ x.pair.indices, i.space.kind = .a) → PlainRepl S st → downgradeCumulants core diag st ts = .ok r →
    PlainRepl S r.1 ∧ r.2 = ts
  | [], st, r, _, hst, h => by
    simp only [downgradeCumulants, pure, Except.pure, Except.ok.injEq] at h
    subst h; exact ⟨hst, rfl⟩
  | x :: ts, st, r, hx, hst, h => by
    simp only [downgradeCumulants, bind, Except.bind] at h
    cases hs : downgradeStep core diag st x with
    | error e => rw [hs] at h; simp at h
    | ok q =>
      rw [hs] at h
      simp only [] at h
      obtain ⟨h1, h2⟩ := downgradeStep_plain (hx x (by simp)) hst hs
      cases hr : downgradeCumulants core diag q.1 ts with
      | error e => rw [hr] at h; simp at h
      | ok qs =>
        rw [hr] at h
        simp only [pure, Except.pure, Except.ok.injEq] at h
        obtain ⟨h3, h4⟩ := downgradeCumulants_plain ts (fun y hy => hx y (by simp [hy])) h1 hr
        subst h
        exact ⟨h3, by rw [h2, h4]⟩

theorem removeDeltas_plain {diag : Finset Index} : ∀ (ts : List Tensor) {st : ReplState}, (∀ x ∈ ts, x.cls ≠ .kronecker) →
    removeDeltas diag st ts = .ok (st, ts)
  | [], _, _ => rfl
  | x :: ts, st, h => by
    rw [removeDeltas, if_neg (h x (by simp)), removeDeltas_plain ts fun y hy => h y (by simp [hy])]
    rfl

/-- The labels get other names at most, or the term is dropped because of an amplitude with active labels only. -/
theorem Term.simplify_plain {ord : SetOrder} (hord : ord.Lawful) {ts : List Tensor} {op : SqOp} {c : ℚ} {t s : Term} {core removeActive : Bool}
    (ht : Term.make ts op c = .ok t) (h : t.simplify ord core removeActive = .ok s) (hk : ∀ x ∈ ts, x.cls ≠ .kronecker)
    (ha : ∀ x ∈ ts, x.cls = .cumulant → ∀ i ∈ x.pair.indices, i.space.kind = .a) (hd : diagonalOf ts op = ∅) :
    ∃ f : Index → Index, (∀ i ∈ labelsOf ts op, ∀ j ∈ labelsOf ts op, f i = f j → i = j) ∧ (∀ i ∈ labelsOf ts op, (f i).space = i.space) ∧
      if removeActive && ts.any (allActiveAmplitude id) then s.coeff = 0 ∧ s.tensors = [] ∧ s.sqOp = (op.relabel f).void
      else s.coeff = c ∧ s.tensors = (sortTensors ts).map (Tensor.relabel f) ∧ s.sqOp = op.relabel f := by
  have hw := Term.wf_of_make ht
  obtain ⟨-, -, -, rfl⟩ := Term.make_ok.1 ht
  unfold Term.simplify at h
  simp only [bind, Except.bind] at h
  have hst : PlainRepl (labelsOf ts op) ⟨id, nextNumbers (labelsOf ts op), fun i => {i}⟩ :=
    ⟨fun _ _ => rfl, fun i hi => nextNumbers_lt hi, fun _ _ _ _ e => e⟩
  cases hcu : downgradeCumulants core (diagonalOf ts op) ⟨id, nextNumbers (labelsOf ts op), fun i => {i}⟩ (sortTensors ts) with
  | error e => rw [hcu] at h; simp at h
  | ok cu =>
  obtain ⟨h1, h2⟩ := downgradeCumulants_plain (sortTensors ts) (fun x hx => ha x ((sortTensors_perm ts).mem_iff.1 hx)) hst hcu
  rw [hcu] at h
  simp only [] at h
  rw [h2, removeDeltas_plain (sortTensors ts) fun x hx => hk x ((sortTensors_perm ts).mem_iff.1 hx)] at h
  simp only [] at h
  have hnil : ord.indices (diagonalOf ts op) = [] := by
    rw [hd]
    exact List.eq_nil_iff_forall_not_mem.2 fun i hi => by simpa using (hord.mem_indices ∅ i).1 hi
  rw [hnil] at h
  simp only [diagonalLoop, pure, Except.pure] at h
  refine ⟨cu.1.repl, h1.inj, h1.space, ?_⟩
  cases hop : replaceSqOp (lookupIn (labelsOf ts op) cu.1.repl) op with
  | error e => rw [hop] at h; simp at h
  | ok op' =>
  rw [hop] at h
  simp only [] at h
  obtain ⟨rfl, -⟩ := replaceSqOp_ok (realizes_lookupIn _ _) hop
  have hany : ((sortTensors ts).any (allActiveAmplitude cu.1.repl)) = ts.any (allActiveAmplitude id) := by
    rw [(sortTensors_perm ts).any_eq]
    rw [Bool.eq_iff_iff, List.any_eq_true, List.any_eq_true]
    refine exists_congr fun x => and_congr_right fun hx => ?_
    unfold allActiveAmplitude
    rw [Bool.and_eq_true, Bool.and_eq_true, List.all_eq_true, List.all_eq_true]
    refine and_congr_right fun _ => forall_congr' fun i => forall_congr' fun hi => ?_
    rw [h1.space i (by rw [mem_labelsOf, mem_labelList]; exact .inr ⟨x, hx, hi⟩)]
    rfl
  rw [hany] at h
  by_cases hv : (removeActive && ts.any (allActiveAmplitude id)) = true
  · rw [if_pos hv] at h ⊢
    simp only [Except.ok.injEq] at h
    subst h
    exact ⟨rfl, rfl, rfl⟩
  · rw [if_neg hv] at h ⊢
    cases hts : replaceTensors (lookupIn (labelsOf ts op) cu.1.repl) (sortTensors ts) with
    | error e => rw [hts] at h; simp at h
    | ok ts' =>
      rw [hts] at h
      simp only [Except.ok.injEq] at h
      subst h
      obtain ⟨-, rfl, -⟩ := replaceTensors_ok (realizes_lookupIn _ _) hts
      exact ⟨rfl, rfl, rfl⟩

end Dsrg
