import Verif.Lemmas.SimplifyShape

/-!
Terms whose labels are summed over in pairs and whose densities are kept apart, and how `simplify` gives such terms.
-/

namespace Dsrg

/-- A paired term without deltas. -/
structure Tidy (ts : List Tensor) (op : SqOp) : Prop extends Paired ts op where
  noDelta : ∀ x ∈ ts, ¬ ActsAsDelta true x

theorem outerList_perm {ts ts' : List Tensor} (h : ts.Perm ts') (op : SqOp) : (outerList ts op).Perm (outerList ts' op) := by
  unfold outerList
  exact List.Perm.append_left _ ((h.filter _).flatMap_right _)

theorem Paired.perm {ts ts' : List Tensor} {op : SqOp} (h : Paired ts op) (hp : ts.Perm ts') : Paired ts' op := by
  refine ⟨?_, ?_, ?_⟩
  · intro i hi
    rw [← (labelList_perm hp op).count_eq]
    exact h.two i ((labelList_perm hp op).mem_iff.2 hi)
  · exact (outerList_perm hp op).nodup_iff.1 h.outer
  · intro x hx; exact h.active x (hp.mem_iff.2 hx)

theorem Tidy.perm {ts ts' : List Tensor} {op : SqOp} (h : Tidy ts op) (hp : ts.Perm ts') : Tidy ts' op :=
  ⟨h.toPaired.perm hp, fun x hx => h.noDelta x (hp.mem_iff.2 hx)⟩

theorem ActsAsDelta.isDensity {x : Tensor} {core : Bool} (h : ActsAsDelta core x) : x.isDensity = true := by
  rcases h with h | h
  · simp [Tensor.isDensity, h]
  · simp [Tensor.isDensity, h.2.1]

/-- Two densities at different places share no label. -/
theorem Paired.apart {ts : List Tensor} {op : SqOp} (h : Paired ts op) :
    ts.Pairwise fun a b => a.isDensity = true → b.isDensity = true → NoCommonLabel a b := by
  have h1 := h.outer
  unfold outerList at h1
  rw [List.nodup_append] at h1
  have h2 := h1.2.1
  rw [List.nodup_flatMap, List.pairwise_filter] at h2
  refine h2.2.imp ?_
  intro a b hab ha hb i hi hi'
  exact hab ha hb hi hi'

theorem Paired.self {ts : List Tensor} {op : SqOp} (h : Paired ts op) {x : Tensor} (hx : x ∈ ts) (hd : x.isDensity = true) :
    (x.upper.list ++ x.lower.list).Nodup := by
  have h1 := h.outer
  unfold outerList at h1
  rw [List.nodup_append] at h1
  have h2 := h1.2.1
  rw [List.nodup_flatMap] at h2
  exact h2.1 x (List.mem_filter.2 ⟨hx, hd⟩)

theorem Paired.outside {ts : List Tensor} {op : SqOp} (h : Paired ts op) {x : Tensor} (hx : x ∈ ts) (hd : x.isDensity = true) :
    ∀ i ∈ x.upper.list ++ x.lower.list, i ∉ op.upper.list ++ op.lower.list := by
  have h1 := h.outer
  unfold outerList at h1
  rw [List.nodup_append] at h1
  intro i hi hi'
  exact h1.2.2 i hi' i (List.mem_flatMap.2 ⟨x, List.mem_filter.2 ⟨hx, hd⟩, hi⟩) rfl

theorem Paired.op {ts : List Tensor} {op : SqOp} (h : Paired ts op) : (op.upper.list ++ op.lower.list).Nodup := by
  have h1 := h.outer
  unfold outerList at h1
  rw [List.nodup_append] at h1
  exact h1.1

theorem count_flatMap_labels (ts : List Tensor) (i : Index) {x : Tensor} (hx : x ∈ ts) :
    x.pair.indices.count i ≤ (ts.flatMap fun t => t.upper.list ++ t.lower.list).count i := by
  induction ts with
  | nil => simp at hx
  | cons a ts ih =>
    rw [List.flatMap_cons, List.count_append]
    rcases List.mem_cons.1 hx with rfl | hx
    · exact Nat.le_add_right _ _
    · exact (ih hx).trans (Nat.le_add_left _ _)

/-- A diagonal label of a factor occurs nowhere else. -/
theorem Paired.diag {ts : List Tensor} {op : SqOp} (h : Paired ts op) {i : Index} (hi : i ∈ diagonalOf ts op) :
    i ∉ outerList ts op := by
  rw [mem_diagonalOf] at hi
  rcases hi with ⟨h1, h2⟩ | ⟨x, hx, h1, h2⟩
  · have := h.op
    rw [List.nodup_append] at this
    exact absurd rfl (this.2.2 i h1 i h2)
  · have hnd : x.isDensity ≠ true := by
      intro hd
      have := h.self hx hd
      rw [List.nodup_append] at this
      exact absurd rfl (this.2.2 i h1 i h2)
    have hin : i ∈ labelList ts op := mem_labelList.2 (Or.inr ⟨x, hx, List.mem_append_left _ h1⟩)
    have h2' := h.two i hin
    intro ho
    -- the places inside `x` and the places in `outerList` are different
    have hx2 : 2 ≤ x.pair.indices.count i := by
      unfold IndicesPair.indices
      rw [List.count_append]
      have := List.count_pos_iff.2 h1
      have := List.count_pos_iff.2 h2
      show 2 ≤ List.count i x.upper.list + List.count i x.lower.list
      omega
    have ho1 := List.count_pos_iff.2 ho
    have hperm : (labelList ts op).Perm (outerList ts op ++ (ts.filter fun y => !y.isDensity).flatMap fun t => t.upper.list ++ t.lower.list) := by
      unfold labelList outerList
      rw [List.append_assoc (op.upper.list ++ op.lower.list), ← List.flatMap_append]
      refine List.Perm.append_left _ (List.Perm.flatMap_right _ ?_)
      exact (List.filter_append_perm Tensor.isDensity ts).symm
    rw [hperm.count_eq, List.count_append] at h2'
    have h3 := count_flatMap_labels (ts.filter fun y => !y.isDensity) i (x := x) (List.mem_filter.2 ⟨hx, by simpa using hnd⟩)
    omega

theorem flatMap_labels_stepped {ts ts' : List Tensor} (h : List.Forall₂ Stepped ts ts') :
    (ts'.flatMap fun t => t.upper.list ++ t.lower.list) = ts.flatMap fun t => t.upper.list ++ t.lower.list := by
  induction h with
  | nil => rfl
  | cons h _ ih => simp only [List.flatMap_cons, ih, Tensor.upper, Tensor.lower, h.1]

/-- The kept tensors after the pass over the cumulants are those that do not act as deltas. -/
theorem filter_stepped {ts ts' : List Tensor} (h : List.Forall₂ Stepped ts ts') [DecidablePred (ActsAsDelta true)] :
    ts'.filter (fun t => decide (t.cls ≠ .kronecker)) = ts.filter fun t => decide (¬ ActsAsDelta true t) := by
  induction h with
  | nil => rfl
  | cons h _ ih =>
    rename_i a b _ _ _
    by_cases hk : b.cls = .kronecker
    · have ha := h.2.1.1 hk
      rw [List.filter_cons_of_neg (by simp [hk]), List.filter_cons_of_neg (by simp [ha]), ih]
    · have ha : ¬ ActsAsDelta true a := fun hh => hk (h.2.1.2 hh)
      rw [List.filter_cons_of_pos (by simp [hk]), List.filter_cons_of_pos (by simp [ha]), ih, h.2.2 hk]

/-- Two labels are the same or those of one delta. -/
def Merged (ts : List Tensor) (i j : Index) : Prop :=
  i = j ∨ ∃ x ∈ ts, ActsAsDelta true x ∧ i ∈ x.pair.indices ∧ j ∈ x.pair.indices

theorem Paired.unique {ts : List Tensor} {op : SqOp} (h : Paired ts op) {x y : Tensor} (hx : x ∈ ts) (hy : y ∈ ts)
    (hdx : x.isDensity = true) (hdy : y.isDensity = true) {i : Index} (hi : i ∈ x.pair.indices) (hi' : i ∈ y.pair.indices) : x = y := by
  by_contra hne
  have := h.apart
  let Q : Tensor → Tensor → Prop := fun a b => a.isDensity = true → b.isDensity = true → NoCommonLabel a b
  have hs : Std.Symm Q := ⟨fun a b hab ha hb i hi hi' => hab hb ha i hi' hi⟩
  exact (List.Pairwise.forall (R := Q) this hx hy hne) hdx hdy i hi hi'

theorem Paired.merged {ts : List Tensor} {op : SqOp} (h : Paired ts op) : Equivalence (Merged ts) := by
  refine ⟨fun _ => Or.inl rfl, ?_, ?_⟩
  · rintro i j (rfl | ⟨x, hx, hd, h1, h2⟩)
    · exact Or.inl rfl
    · exact Or.inr ⟨x, hx, hd, h2, h1⟩
  · rintro i j k (rfl | ⟨x, hx, hd, h1, h2⟩) hjk
    · exact hjk
    · rcases hjk with rfl | ⟨y, hy, hd', h3, h4⟩
      · exact Or.inr ⟨x, hx, hd, h1, h2⟩
      · obtain rfl := h.unique hx hy hd.isDensity hd'.isDensity h2 h3
        exact Or.inr ⟨x, hx, hd, h1, h4⟩

theorem nodup_map_of {α β : Type} {f : α → β} {l : List α} (h : ∀ a ∈ l, ∀ b ∈ l, f a = f b → a = b) (hl : l.Nodup) : (l.map f).Nodup :=
  (List.nodup_map_iff_inj_on hl).2 h

theorem labelList_relabel' (f : Index → Index) (ts : List Tensor) (op : SqOp) :
    labelList (ts.map (Tensor.relabel f)) (op.relabel f) = (labelList ts op).map f := labelList_relabel f ts op

theorem isDensity_relabel (f : Index → Index) (x : Tensor) : (x.relabel f).isDensity = x.isDensity := rfl

theorem outerList_relabel (f : Index → Index) (ts : List Tensor) (op : SqOp) :
    outerList (ts.map (Tensor.relabel f)) (op.relabel f) = (outerList ts op).map f := by
  unfold outerList
  have : (ts.map (Tensor.relabel f)).filter Tensor.isDensity = (ts.filter Tensor.isDensity).map (Tensor.relabel f) := by
    rw [List.filter_map]; rfl
  rw [this]
  simp [Tensor.relabel, IndicesPair.relabel, List.flatMap_map, List.map_flatMap, Tensor.upper, Tensor.lower]

open Classical in
/-- The pairing survives when the labels of the deltas are merged and the deltas are dropped. -/
theorem Paired.drop {ts : List Tensor} {op : SqOp} (h : Paired ts op) {ρ : Index → Index}
    (hρ : ∀ i ∈ labelList ts op, ∀ j ∈ labelList ts op, ρ i = ρ j ↔ Merged ts i j)
    (hdelta : ∀ x ∈ ts, ActsAsDelta true x → ∃ u l, x.upper.list = [u] ∧ x.lower.list = [l])
    (hcu : ∀ x ∈ ts, x.cls = .cumulant → ¬ ActsAsDelta true x → ∀ i ∈ x.pair.indices, Lowered x (ρ i)) :
    Tidy ((ts.filter fun t => decide (¬ ActsAsDelta true t)).map (Tensor.relabel ρ)) (op.relabel ρ) := by
  set ds := ts.filter fun t => decide (¬ ActsAsDelta true t) with hds
  have hsub : ∀ x ∈ ds, x ∈ ts ∧ ¬ ActsAsDelta true x := by
    intro x hx; rw [hds, List.mem_filter] at hx; exact ⟨hx.1, by simpa using hx.2⟩
  set D := (ts.filter fun t => decide (ActsAsDelta true t)).flatMap fun x => x.upper.list ++ x.lower.list with hD
  have hperm : (labelList ts op).Perm (labelList ds op ++ D) := by
    unfold labelList
    rw [hD, List.append_assoc (op.upper.list ++ op.lower.list), ← List.flatMap_append]
    refine List.Perm.append_left _ (List.Perm.flatMap_right _ ?_)
    have := List.filter_append_perm (fun t => decide (¬ ActsAsDelta true t)) ts
    refine this.symm.trans ?_
    simp [hds]
  have hpermO : (outerList ts op).Perm (outerList ds op ++ D) := by
    unfold outerList
    rw [hD, List.append_assoc (op.upper.list ++ op.lower.list), ← List.flatMap_append]
    refine List.Perm.append_left _ (List.Perm.flatMap_right _ ?_)
    have := List.filter_append_perm (fun t => decide (¬ ActsAsDelta true t)) (ts.filter Tensor.isDensity)
    refine this.symm.trans ?_
    have e1 : (ts.filter Tensor.isDensity).filter (fun t => decide (¬ ActsAsDelta true t)) = ds.filter Tensor.isDensity := by
      rw [hds, List.filter_filter, List.filter_filter]
      congr 1; funext x; exact Bool.and_comm _ _
    have e2 : (ts.filter Tensor.isDensity).filter (fun t => !decide (¬ ActsAsDelta true t)) = ts.filter fun t => decide (ActsAsDelta true t) := by
      rw [List.filter_filter]
      apply List.filter_congr
      intro x _
      by_cases hx : ActsAsDelta true x
      · simp [hx, hx.isDensity]
      · simp [hx]
    rw [e1, e2]
  have hnd : (outerList ds op ++ D).Nodup := hpermO.nodup_iff.1 h.outer
  rw [List.nodup_append] at hnd
  obtain ⟨hO, hDn, hOD⟩ := hnd
  have hin : ∀ i ∈ labelList ds op, i ∈ labelList ts op := fun i hi => hperm.mem_iff.2 (List.mem_append_left _ hi)
  have hinD : ∀ i ∈ D, i ∈ labelList ts op := fun i hi => hperm.mem_iff.2 (List.mem_append_right _ hi)
  have hOin : ∀ i ∈ outerList ds op, i ∈ labelList ds op := by
    intro i hi
    unfold outerList at hi
    rw [List.mem_append] at hi
    rw [mem_labelList]
    rcases hi with hi | hi
    · exact Or.inl hi
    · obtain ⟨x, hx, hi⟩ := List.mem_flatMap.1 hi
      exact Or.inr ⟨x, (List.mem_filter.1 hx).1, hi⟩
  have hDmem : ∀ i, i ∈ D ↔ ∃ x ∈ ts, ActsAsDelta true x ∧ i ∈ x.pair.indices := by
    intro i
    rw [hD, List.mem_flatMap]
    simp only [List.mem_filter, decide_eq_true_eq, and_assoc]
    rfl
  refine ⟨⟨?_, ?_, ?_⟩, ?_⟩
  · -- pairs
    rw [labelList_relabel]
    intro k hk
    obtain ⟨i, hi, rfl⟩ := List.mem_map.1 hk
    have htot : ∀ j ∈ labelList ts op, (labelList ds op).count j + D.count j = 2 := by
      intro j hj
      rw [← List.count_append, ← hperm.count_eq]; exact h.two j hj
    rw [List.count_eq_countP, List.countP_map]
    by_cases hiD : i ∈ D
    · obtain ⟨x, hx, hd, hix⟩ := (hDmem i).1 hiD
      obtain ⟨u, l, hu, hl⟩ := hdelta x hx hd
      have hidx := Tensor.indices_one hu hl
      have hul : u ≠ l := by
        have := h.self hx hd.isDensity
        rw [hu, hl] at this
        simpa using this
      have huD : u ∈ D := (hDmem u).2 ⟨x, hx, hd, by simp [hidx]⟩
      have hlD : l ∈ D := (hDmem l).2 ⟨x, hx, hd, by simp [hidx]⟩
      have hcount : ∀ L : List Index, (∀ j ∈ L, j ∈ labelList ts op) →
          L.countP ((fun b => b == ρ i) ∘ ρ) = L.count u + L.count l := by
        intro L
        induction L with
        | nil => simp
        | cons a L ih =>
          intro hL
          rw [List.countP_cons, ih fun j hj => hL j (by simp [hj]), List.count_cons, List.count_cons]
          have ha : (((fun b => b == ρ i) ∘ ρ) a = true) ↔ (a = u ∨ a = l) := by
            simp only [Function.comp, beq_iff_eq]
            rw [hρ a (hL a (by simp)) i (hin i hi)]
            constructor
            · rintro (rfl | ⟨y, hy, hd', h1, h2⟩)
              · rw [hidx] at hix; simpa using hix
              · obtain rfl := h.unique hx hy hd.isDensity hd'.isDensity hix h2
                rw [hidx] at h1; simpa using h1
            · rintro (rfl | rfl)
              · exact Or.inr ⟨x, hx, hd, by simp [hidx], hix⟩
              · exact Or.inr ⟨x, hx, hd, by simp [hidx], hix⟩
          by_cases hau : a = u
          · have hal : a ≠ l := by rw [hau]; exact hul
            rw [if_pos (ha.2 (Or.inl hau))]
            simp [hau, hul]; omega
          · by_cases hal : a = l
            · rw [if_pos (ha.2 (Or.inr hal))]
              simp [hal, hul.symm]; omega
            · rw [if_neg (fun hh => (ha.1 hh).elim hau hal)]
              simp [hau, hal]
      rw [hcount _ hin]
      have h1 := htot u (hinD u huD)
      have h2 := htot l (hinD l hlD)
      have h3 := List.nodup_iff_count_le_one.1 hDn u
      have h4 := List.nodup_iff_count_le_one.1 hDn l
      have h5 := List.count_pos_iff.2 huD
      have h6 := List.count_pos_iff.2 hlD
      omega
    · have hcount : (labelList ds op).countP ((fun b => b == ρ i) ∘ ρ) = (labelList ds op).count i := by
        rw [List.count_eq_countP]
        apply List.countP_congr
        intro a ha
        simp only [Function.comp, beq_iff_eq]
        rw [hρ a (hin a ha) i (hin i hi)]
        constructor
        · rintro (hh | ⟨y, hy, hd', h1, h2⟩)
          · exact hh
          · exact absurd ((hDmem i).2 ⟨y, hy, hd', h2⟩) hiD
        · exact fun hh => Or.inl hh
      rw [hcount]
      have h1 := htot i (hin i hi)
      rw [List.count_eq_zero.2 hiD] at h1
      omega
  · rw [outerList_relabel]
    refine nodup_map_of ?_ hO
    intro a ha b hb e
    rcases (hρ a (hin a (hOin a ha)) b (hin b (hOin b hb))).1 e with e | ⟨x, hx, hd, h1, h2⟩
    · exact e
    · exact absurd rfl (hOD a ha a ((hDmem a).2 ⟨x, hx, hd, h1⟩))
  · intro y hy hc hlen i hi
    obtain ⟨x, hx, rfl⟩ := List.mem_map.1 hy
    have hlen' : x.upper.list.length ≠ 1 := by simpa [Tensor.relabel, Tensor.upper] using hlen
    have : ∃ j ∈ x.pair.indices, i = ρ j := by
      simp only [Tensor.relabel, Tensor.upper, Tensor.lower, ← List.map_append, List.mem_map] at hi
      obtain ⟨j, hj, rfl⟩ := hi
      exact ⟨j, hj, rfl⟩
    obtain ⟨j, hj, rfl⟩ := this
    rw [(hcu x (hsub x hx).1 hc (hsub x hx).2 j hj).1 hlen']
    decide
  · intro y hy
    obtain ⟨x, hx, rfl⟩ := List.mem_map.1 hy
    rintro (hk | ⟨-, hc, u, l, hu, hl, hcc⟩)
    · exact (hsub x hx).2 (Or.inl hk)
    · have hu' : x.upper.list.map ρ = [u] := hu
      have hl' : x.lower.list.map ρ = [l] := hl
      have hlen : x.upper.list.length = 1 := by rw [← List.length_map (f := ρ), hu']; rfl
      rcases hcc with hcc | hcc
      · have : u ∈ x.upper.list.map ρ := by rw [hu']; simp
        obtain ⟨j, hj, rfl⟩ := List.mem_map.1 this
        rcases (hcu x (hsub x hx).1 hc (hsub x hx).2 j (List.mem_append_left _ hj)).2 hlen with hk | hk <;> rw [hcc] at hk <;> exact absurd hk (by decide)
      · have : l ∈ x.lower.list.map ρ := by rw [hl']; simp
        obtain ⟨j, hj, rfl⟩ := List.mem_map.1 this
        rcases (hcu x (hsub x hx).1 hc (hsub x hx).2 j (List.mem_append_right _ hj)).2 hlen with hk | hk <;> rw [hcc] at hk <;> exact absurd hk (by decide)

theorem tidy_nil {op : SqOp} (h1 : op.upper.list = []) (h2 : op.lower.list = []) : Tidy [] op := by
  refine ⟨⟨?_, ?_, ?_⟩, ?_⟩
  · intro i hi; simp [labelList, h1, h2] at hi
  · simp [outerList, h1, h2]
  · simp
  · simp

open Classical in
/-- What the passes of `simplify` over a paired term arrive at. -/
theorem Term.simplify_stage {ord : SetOrder} (hord : ord.Lawful) {t : Term} (hw : t.WF)
    (hdiag : t.diag ⊆ diagonalOf t.tensors t.sqOp) (hp : Paired t.tensors t.sqOp) {cu de : ReplState × List Tensor}
    {st : (Index → Index) × (Space → Nat) × Finset Index}
    (hcu : downgradeCumulants true t.diag ⟨id, t.nextNum, fun i => {i}⟩ t.tensors = .ok cu)
    (hde : removeDeltas t.diag ⟨cu.1.repl, cu.1.next, fun i => {i}⟩ cu.2 = .ok de)
    (hlo : diagonalLoop ord (fun i => cu.1.rdiag i ∪ de.1.rdiag i) (ord.indices t.diag) (de.1.repl, de.1.next, t.indicesSet) = .ok st) :
    Tidy (de.2.map (Tensor.relabel st.1)) (t.sqOp.relabel st.1) ∧
      (∀ x ∈ t.tensors, ActsAsDelta true x → ∃ u l, x.upper.list = [u] ∧ x.lower.list = [l] ∧ st.1 u = st.1 l) ∧
      de.2 = t.tensors.filter (fun x => decide (¬ ActsAsDelta true x)) ∧
      (∀ x ∈ de.2, x.cls = .cumulant → ∀ i ∈ x.pair.indices, (st.1 i).space.kind = .h ∨ (st.1 i).space.kind = .a) ∧
      (∀ i ∈ labelList t.tensors t.sqOp, ∀ j ∈ labelList t.tensors t.sqOp, st.1 i = st.1 j → Merged t.tensors i j) ∧
      (∀ i ∈ t.indicesSet, (st.1 i).number < st.2.1 (st.1 i).space) ∧
      (∀ i, (∀ x ∈ t.tensors, ActsAsDelta true x → i ∉ x.pair.indices) → i ∉ t.diag → st.1 i = cu.1.repl i) ∧
      (∀ i ∈ t.diag, cu.1.rdiag i ∪ de.1.rdiag i = {i}) ∧ List.Forall₂ Stepped t.tensors cu.2 := by
  have hS : labelsOf t.tensors t.sqOp ⊆ t.indicesSet := hw.set_sub
  have hlab : ∀ x ∈ t.tensors, ∀ i ∈ x.pair.indices, i ∈ t.indicesSet :=
    fun x hx i hi => hS (mem_labelsOf.2 (mem_labelList.2 (Or.inr ⟨x, hx, hi⟩)))
  have hE := hp.merged
  have hinit : Apart t.indicesSet (Merged t.tensors) id t.nextNum :=
    ⟨fun i _ j _ e => Or.inl e, fun i hi => hw.fresh i hi, fun i hi => hw.fresh i hi⟩
  obtain ⟨c1, c2, c3, c4⟩ := downgradeCumulants_shape hE t.tensors _ cu hinit
    (hp.apart.imp fun hab ha hb => hab (by simp [Tensor.isDensity, ha]) (by simp [Tensor.isDensity, hb])) hcu
  -- deltas are apart from the densities that stay, and from the diagonal labels
  have houter : ∀ x ∈ t.tensors, x.isDensity = true → ∀ i ∈ x.pair.indices, i ∈ outerList t.tensors t.sqOp := by
    intro x hx hd i hi
    unfold outerList
    exact List.mem_append_right _ (List.mem_flatMap.2 ⟨x, List.mem_filter.2 ⟨hx, hd⟩, hi⟩)
  have hdgo : ∀ i, i ∈ outerList t.tensors t.sqOp → i ∉ t.diag := by
    intro i hi hd; exact hp.diag (hdiag hd) hi
  have hdelid : ∀ x ∈ t.tensors, ActsAsDelta true x → ∀ i ∈ x.pair.indices, cu.1.repl i = i ∧ cu.1.rdiag i = {i} := by
    intro x hx hd i hi
    refine c2 i ?_
    intro y hy hc hnd hiy
    obtain rfl := hp.unique hx hy hd.isDensity (by simp [Tensor.isDensity, hc]) hi hiy
    exact hnd hd
  have hdel : ∀ x ∈ cu.2, x.cls = .kronecker → ∀ i ∈ x.pair.indices, cu.1.repl i = i ∧ i ∉ t.diag := by
    intro x hx hk i hi
    obtain ⟨a, ha, hP, hQ, -⟩ := forall₂_mem c4 hx
    rw [hP] at hi
    exact ⟨(hdelid a ha (hQ.1 hk) i hi).1, hdgo i (houter a ha (hQ.1 hk).isDensity i hi)⟩
  have hpw : cu.2.Pairwise fun a b => a.cls = .kronecker → b.cls = .kronecker → ∀ i ∈ a.pair.indices, i ∉ b.pair.indices := by
    refine forall₂_pairwise_of ?_ c4 hp.apart
    intro a b a' b' hab hab' hR hk hk' i hi
    rw [hab.1] at hi
    rw [hab'.1]
    exact hR (hab.2.1.1 hk).isDensity (hab'.2.1.1 hk').isDensity i hi
  obtain ⟨d1, d2, d3, d4, d5⟩ := removeDeltas_shape hE cu.2 ⟨cu.1.repl, cu.1.next, fun i => {i}⟩ de c1
    (fun x hx i hi => by
      obtain ⟨a, ha, hP, -⟩ := forall₂_mem c4 hx
      rw [hP] at hi; exact hlab a ha i hi) hdel hpw
    (fun x hx hk i hi j hj => by
      obtain ⟨a, ha, hP, hQ, -⟩ := forall₂_mem c4 hx
      rw [hP] at hi hj
      exact Or.inr ⟨a, ha, hQ.1 hk, hi, hj⟩) hde
  -- diagonal labels are in no density
  have hdiagrd : ∀ i ∈ ord.indices t.diag, cu.1.rdiag i ∪ de.1.rdiag i = {i} := by
    intro i hi
    rw [hord.mem_indices] at hi
    have h1 : cu.1.rdiag i = {i} := (c2 i fun x hx hc _ hix => hdgo i (houter x hx (by simp [Tensor.isDensity, hc]) i hix) hi).2
    have h2 : de.1.rdiag i = {i} := by rw [d2]
    rw [h1, h2, Finset.union_idempotent]
  obtain ⟨e1, e2⟩ := diagonalLoop_shape hE (ord.indices t.diag) (de.1.repl, de.1.next, t.indicesSet) st d1 hdiagrd hlo
  have hstay : ∀ i, i ∈ outerList t.tensors t.sqOp → st.1 i = de.1.repl i :=
    fun i hi => e2 i fun hh => hdgo i hi ((hord.mem_indices _ _).1 hh)
  -- the deltas
  have hone : ∀ x ∈ t.tensors, ActsAsDelta true x → ∃ u l, x.upper.list = [u] ∧ x.lower.list = [l] ∧ de.1.repl u = de.1.repl l := by
    intro x hx hd
    have : ∃ x' ∈ cu.2, Stepped x x' := by
      clear d1 d2 d3 d4 d5 hpw hdel hde hlo hcu c3 c2 c1 hdiagrd e1 e2 hstay
      revert hx
      revert c4
      generalize t.tensors = ts
      generalize cu.2 = ts'
      intro c4 hx
      induction c4 with
      | nil => simp at hx
      | cons hab _ ih =>
        rcases List.mem_cons.1 hx with rfl | hx
        · exact ⟨_, by simp, hab⟩
        · obtain ⟨y, hy, hs⟩ := ih hx; exact ⟨y, by simp [hy], hs⟩
    obtain ⟨x', hx', hP, hQ, -⟩ := this
    obtain ⟨u, l, hu, hl, hul⟩ := d5 x' hx' (hQ.2 hd)
    refine ⟨u, l, ?_, ?_, hul⟩
    · show x.pair.upper.list = _
      rw [← hP]; exact hu
    · show x.pair.lower.list = _
      rw [← hP]; exact hl
  have hρ : ∀ i ∈ labelList t.tensors t.sqOp, ∀ j ∈ labelList t.tensors t.sqOp, st.1 i = st.1 j ↔ Merged t.tensors i j := by
    intro i hi j hj
    constructor
    · exact e1.eq i (hS (mem_labelsOf.2 hi)) j (hS (mem_labelsOf.2 hj))
    · rintro (rfl | ⟨x, hx, hd, h1, h2⟩)
      · rfl
      · obtain ⟨u, l, hu, hl, hul⟩ := hone x hx hd
        have hidx := Tensor.indices_one hu hl
        rw [hstay i (houter x hx hd.isDensity i h1), hstay j (houter x hx hd.isDensity j h2)]
        rw [hidx] at h1 h2
        simp only [List.mem_cons, List.not_mem_nil, or_false] at h1 h2
        rcases h1 with rfl | rfl <;> rcases h2 with rfl | rfl <;> simp [hul]
  have hcum : ∀ x ∈ t.tensors, x.cls = .cumulant → ¬ ActsAsDelta true x → ∀ i ∈ x.pair.indices, Lowered x (st.1 i) := by
    intro x hx hc hnd i hi
    have hd : x.isDensity = true := by simp [Tensor.isDensity, hc]
    rw [hstay i (houter x hx hd i hi), d3 i ?_]
    · exact c3 x hx hc hnd i hi
    · intro y hy hk hiy
      obtain ⟨a, ha, hP, hQ, -⟩ := forall₂_mem c4 hy
      rw [hP] at hiy
      obtain rfl := hp.unique hx ha hd (hQ.1 hk).isDensity hi hiy
      exact hnd (hQ.1 hk)
  refine ⟨?_, ?_, ?_, ?_, fun i hi j hj => (hρ i hi j hj).1, e1.fresh, ?_, fun i hi => hdiagrd i ((hord.mem_indices _ _).2 hi), c4⟩
  rotate_left 4
  · intro i hi hd
    rw [e2 i fun hh => hd ((hord.mem_indices _ _).1 hh)]
    refine d3 i ?_
    intro y hy hk hiy
    obtain ⟨a, ha, hP, hQ, -⟩ := forall₂_mem c4 hy
    rw [hP] at hiy
    exact hi a ha (hQ.1 hk) hiy
  · rw [d4, filter_stepped c4]
    exact hp.drop hρ (fun x hx hd => by obtain ⟨u, l, hu, hl, -⟩ := hone x hx hd; exact ⟨u, l, hu, hl⟩) hcum
  · intro x hx hd
    obtain ⟨u, l, hu, hl, hul⟩ := hone x hx hd
    have hidx := Tensor.indices_one hu hl
    refine ⟨u, l, hu, hl, ?_⟩
    rw [hstay u (houter x hx hd.isDensity u (by simp [hidx])), hstay l (houter x hx hd.isDensity l (by simp [hidx])), hul]
  · rw [d4, filter_stepped c4]
  · intro x hx hc i hi
    rw [d4, filter_stepped c4, List.mem_filter] at hx
    have := hcum x hx.1 hc (of_decide_eq_true hx.2) i hi
    by_cases h1 : x.upper.list.length = 1
    · exact this.2 h1
    · exact Or.inr (this.1 h1)

/-- `simplify` turns a paired term into a tidy one. -/
theorem Term.simplify_tidy {ord : SetOrder} (hord : ord.Lawful) {t t' : Term} {removeActive : Bool} (hw : t.WF)
    (hdiag : t.diag ⊆ diagonalOf t.tensors t.sqOp) (hp : Paired t.tensors t.sqOp)
    (h : t.simplify ord true removeActive = .ok t') :
    Tidy t'.tensors t'.sqOp ∧
      (t.sqOp.upper.list.length = t.sqOp.lower.list.length → t'.sqOp.upper.list.length = t'.sqOp.lower.list.length) ∧
      ((∀ x ∈ t.tensors, x.pair.indices.Nodup) →
        (∀ x ∈ t.tensors, x.isDensity = false → ∀ i ∈ x.pair.indices, ∀ j ∈ x.pair.indices, Merged t.tensors i j → i = j) →
        ∀ x ∈ t'.tensors, x.pair.indices.Nodup) := by
  classical
  unfold Term.simplify at h
  simp only [bind, Except.bind] at h
  cases hcu : downgradeCumulants true t.diag ⟨id, t.nextNum, fun i => {i}⟩ t.tensors with
  | error e => rw [hcu] at h; simp at h
  | ok cu =>
  rw [hcu] at h
  simp only [] at h
  cases hde : removeDeltas t.diag ⟨cu.1.repl, cu.1.next, fun i => {i}⟩ cu.2 with
  | error e => rw [hde] at h; simp at h
  | ok de =>
  rw [hde] at h
  simp only [] at h
  cases hlo : diagonalLoop ord (fun i => cu.1.rdiag i ∪ de.1.rdiag i) (ord.indices t.diag) (de.1.repl, de.1.next, t.indicesSet) with
  | error e => rw [hlo] at h; simp at h
  | ok st =>
  rw [hlo] at h
  simp only [] at h
  cases hop : replaceSqOp (lookupIn st.2.2 st.1) t.sqOp with
  | error e => rw [hop] at h; simp at h
  | ok op =>
  rw [hop] at h
  simp only [] at h
  obtain ⟨ht, -, hfil, -, hmer, -⟩ := Term.simplify_stage hord hw hdiag hp hcu hde hlo
  by_cases hv : (removeActive && de.2.any (allActiveAmplitude st.1)) = true
  · rw [if_pos hv] at h
    simp only [pure, Except.pure, Except.ok.injEq] at h
    subst h
    exact ⟨tidy_nil rfl rfl, fun _ => rfl, by simp [Term.voidSelf]⟩
  · rw [if_neg hv] at h
    cases hts : replaceTensors (lookupIn st.2.2 st.1) de.2 with
    | error e => rw [hts] at h; simp at h
    | ok ts =>
      rw [hts] at h
      simp only [pure, Except.pure, Except.ok.injEq] at h
      subst h
      obtain ⟨rfl, -⟩ := replaceSqOp_ok (realizes_lookupIn _ _) hop
      obtain ⟨-, rfl, -⟩ := replaceTensors_ok (realizes_lookupIn _ _) hts
      refine ⟨?_, fun hb => ?_, fun hn hm => ?_⟩
      · show Tidy (de.2.map (Tensor.relabel st.1)) (t.sqOp.relabel st.1)
        exact ht
      · simpa [IndicesPair.relabel] using hb
      · intro y hy
        obtain ⟨x, hx, rfl⟩ : ∃ x ∈ de.2, x.relabel st.1 = y := List.mem_map.1 hy
        rw [hfil, List.mem_filter] at hx
        obtain ⟨hx, hnd⟩ := hx
        show (x.pair.relabel st.1).indices.Nodup
        have : (x.pair.relabel st.1).indices = x.pair.indices.map st.1 := by simp [IndicesPair.indices, IndicesPair.relabel]
        rw [this]
        refine nodup_map_of ?_ (hn x hx)
        intro a ha b hb e
        have hin : ∀ c ∈ x.pair.indices, c ∈ labelList t.tensors t.sqOp := fun c hc => mem_labelList.2 (Or.inr ⟨x, hx, hc⟩)
        have hab := hmer a (hin a ha) b (hin b hb) e
        by_cases hd : x.isDensity = true
        · rcases hab with rfl | ⟨y, hy, hδ, h1, -⟩
          · rfl
          · obtain rfl := hp.unique hx hy hd hδ.isDensity ha h1
            exact absurd hδ (of_decide_eq_true hnd)
        · exact hm x hx (by simpa using hd) a ha b hb hab

end Dsrg
