import Verif.Lemmas.Tidy
import Verif.Lemmas.SympyValue
import Mathlib.Data.Multiset.Bind
import Mathlib.Data.Multiset.Filter

/-!
The symmetries used by SymPy keep tidy terms tidy.
-/

namespace Dsrg

/-- The class, the numbers of labels and the labels of a tensor. -/
def Tensor.sig (x : Tensor) : TCls × Nat × Nat × Multiset Index := (x.cls, x.upper.list.length, x.lower.list.length, (x.pair.indices : Multiset Index))

/-- The tensors of a term, up to the order of tensors and of labels. -/
def shape (ts : List Tensor) : Multiset (TCls × Nat × Nat × Multiset Index) := (ts.map Tensor.sig : List _)

/-- The labels of an operator, up to their order. -/
def opShape (op : SqOp) : Multiset Index := (op.indices : List Index)

/-- The same with other labels. -/
def sigMap (g : Index → Index) (s : TCls × Nat × Nat × Multiset Index) : TCls × Nat × Nat × Multiset Index :=
  (s.1, s.2.1, s.2.2.1, s.2.2.2.map g)

theorem sigMap_id (s : TCls × Nat × Nat × Multiset Index) : sigMap id s = s := by simp [sigMap]

theorem sigMap_comp (g h : Index → Index) (s : TCls × Nat × Nat × Multiset Index) : sigMap g (sigMap h s) = sigMap (g ∘ h) s := by
  simp [sigMap]

/-- One term is the other up to a renaming of labels within their spaces, and the order of tensors and labels. -/
def SameShape (ts : List Tensor) (op : SqOp) (ts' : List Tensor) (op' : SqOp) : Prop :=
  ∃ g : Index → Index, Function.Injective g ∧ (∀ i, (g i).space = i.space) ∧ shape ts' = (shape ts).map (sigMap g) ∧
    opShape op' = (opShape op).map g

theorem SameShape.refl (ts : List Tensor) (op : SqOp) : SameShape ts op ts op := by
  refine ⟨id, Function.injective_id, fun _ => rfl, ?_, by simp⟩
  rw [show sigMap id = id from funext sigMap_id, Multiset.map_id]

theorem SameShape.trans {ts ts' ts'' : List Tensor} {op op' op'' : SqOp} (h : SameShape ts op ts' op') (h' : SameShape ts' op' ts'' op'') :
    SameShape ts op ts'' op'' := by
  obtain ⟨g, g1, g2, g3, g4⟩ := h
  obtain ⟨k, k1, k2, k3, k4⟩ := h'
  refine ⟨k ∘ g, k1.comp g1, fun i => (k2 _).trans (g2 i), ?_, ?_⟩
  · rw [k3, g3, Multiset.map_map]
    congr 1; funext s; exact sigMap_comp _ _ _
  · rw [k4, g4, Multiset.map_map]

theorem SameShape.perm {ts ts' ts'' : List Tensor} {op op' : SqOp} (h : SameShape ts op ts' op') (hp : ts'.Perm ts'') :
    SameShape ts op ts'' op' := by
  obtain ⟨g, g1, g2, g3, g4⟩ := h
  refine ⟨g, g1, g2, ?_, g4⟩
  rw [← g3]
  exact (Multiset.coe_eq_coe.2 (hp.map _)).symm

theorem coe_flatMap_labels (ts : List Tensor) :
    ((ts.flatMap fun x => x.upper.list ++ x.lower.list : List Index) : Multiset Index) = (shape ts).bind fun s => s.2.2.2 := by
  unfold shape
  induction ts with
  | nil => rfl
  | cons x ts ih =>
    rw [List.flatMap_cons, List.map_cons, ← Multiset.cons_coe, Multiset.cons_bind, ← ih, ← Multiset.coe_add]
    rfl

theorem coe_filter_shape (ts : List Tensor) : shape (ts.filter Tensor.isDensity) =
    (shape ts).filter fun s => s.1 = .cumulant ∨ s.1 = .hole ∨ s.1 = .kronecker := by
  unfold shape
  induction ts with
  | nil => rfl
  | cons x ts ih =>
    rw [List.map_cons, ← Multiset.cons_coe]
    by_cases hx : x.isDensity = true
    · have hx' : x.sig.1 = .cumulant ∨ x.sig.1 = .hole ∨ x.sig.1 = .kronecker := by
        simp only [Tensor.isDensity, Bool.or_eq_true, decide_eq_true_eq, or_assoc] at hx
        exact hx
      rw [List.filter_cons_of_pos hx, Multiset.filter_cons_of_pos (p := fun s : TCls × Nat × Nat × Multiset Index => s.1 = .cumulant ∨ s.1 = .hole ∨ s.1 = .kronecker) _ hx', ← ih]
      rfl
    · have hx' : ¬ (x.sig.1 = .cumulant ∨ x.sig.1 = .hole ∨ x.sig.1 = .kronecker) := by
        simp only [Tensor.isDensity, Bool.or_eq_true, decide_eq_true_eq, or_assoc] at hx
        exact hx
      rw [List.filter_cons_of_neg hx, Multiset.filter_cons_of_neg (p := fun s : TCls × Nat × Nat × Multiset Index => s.1 = .cumulant ∨ s.1 = .hole ∨ s.1 = .kronecker) _ hx', ← ih]

theorem SameShape.labels {ts ts' : List Tensor} {op op' : SqOp} {g : Index → Index} (h3 : shape ts' = (shape ts).map (sigMap g))
    (h4 : opShape op' = (opShape op).map g) :
    (labelList ts' op').Perm ((labelList ts op).map g) ∧ (outerList ts' op').Perm ((outerList ts op).map g) := by
  have hbind : ∀ S : Multiset (TCls × Nat × Nat × Multiset Index), (S.map (sigMap g)).bind (fun s => s.2.2.2) = (S.bind fun s => s.2.2.2).map g := by
    intro S
    rw [Multiset.bind_map, Multiset.map_bind]
    rfl
  have hop : ∀ o : SqOp, ((o.upper.list ++ o.lower.list : List Index) : Multiset Index) = opShape o := fun _ => rfl
  have hl : ∀ (ts : List Tensor) (o : SqOp), ((labelList ts o : List Index) : Multiset Index) = opShape o + (shape ts).bind fun s => s.2.2.2 := by
    intro ts o
    rw [← coe_flatMap_labels, ← hop, Multiset.coe_add]
    rfl
  have ho : ∀ (ts : List Tensor) (o : SqOp), ((outerList ts o : List Index) : Multiset Index) =
      opShape o + ((shape ts).filter fun s => s.1 = .cumulant ∨ s.1 = .hole ∨ s.1 = .kronecker).bind fun s => s.2.2.2 := by
    intro ts o
    rw [← coe_filter_shape, ← coe_flatMap_labels, ← hop, Multiset.coe_add]
    rfl
  constructor
  · rw [← Multiset.coe_eq_coe, ← Multiset.map_coe, hl, hl, h3, h4, hbind, Multiset.map_add]
  · rw [← Multiset.coe_eq_coe, ← Multiset.map_coe, ho, ho, h3, h4, Multiset.filter_map, hbind, Multiset.map_add]
    rfl

/-- The labels of the tensors stay distinct. -/
theorem nodup_of_sameShape {ts ts' : List Tensor} {op op' : SqOp} (h : ∀ x ∈ ts, x.pair.indices.Nodup) (hs : SameShape ts op ts' op') :
    ∀ x ∈ ts', x.pair.indices.Nodup := by
  obtain ⟨g, g1, -, g3, -⟩ := hs
  intro x hx
  have : x.sig ∈ shape ts' := Multiset.mem_coe.2 (List.mem_map_of_mem hx)
  rw [g3, Multiset.mem_map] at this
  obtain ⟨s, hs, e⟩ := this
  obtain ⟨y, hy, rfl⟩ := List.mem_map.1 (Multiset.mem_coe.1 hs)
  have e' : (y.pair.indices : Multiset Index).map g = (x.pair.indices : Multiset Index) := congrArg (fun s => s.2.2.2) e
  rw [← Multiset.coe_nodup, ← e']
  exact (Multiset.nodup_map_iff_of_injective g1).2 (Multiset.coe_nodup.2 (h y hy))

theorem Tidy.of_sameShape {ts ts' : List Tensor} {op op' : SqOp} (h : Tidy ts op) (hs : SameShape ts op ts' op') : Tidy ts' op' := by
  obtain ⟨g, g1, g2, g3, g4⟩ := hs
  obtain ⟨p1, p2⟩ := SameShape.labels g3 g4
  have hmem : ∀ x ∈ ts', ∃ y ∈ ts, x.sig = sigMap g y.sig := by
    intro x hx
    have : x.sig ∈ shape ts' := Multiset.mem_coe.2 (List.mem_map_of_mem hx)
    rw [g3, Multiset.mem_map] at this
    obtain ⟨s, hs, e⟩ := this
    obtain ⟨y, hy, rfl⟩ := List.mem_map.1 (Multiset.mem_coe.1 hs)
    exact ⟨y, hy, e.symm⟩
  have hlab : ∀ {x y : Tensor}, x.sig = sigMap g y.sig → ∀ i ∈ x.pair.indices, ∃ j ∈ y.pair.indices, i = g j := by
    intro x y e i hi
    have e' : (x.pair.indices : Multiset Index) = (y.pair.indices : Multiset Index).map g := congrArg (fun s => s.2.2.2) e
    have : i ∈ (x.pair.indices : Multiset Index) := Multiset.mem_coe.2 hi
    rw [e', Multiset.mem_map] at this
    obtain ⟨j, hj, rfl⟩ := this
    exact ⟨j, Multiset.mem_coe.1 hj, rfl⟩
  refine ⟨⟨?_, ?_, ?_⟩, ?_⟩
  · intro i hi
    rw [p1.mem_iff, List.mem_map] at hi
    obtain ⟨j, hj, rfl⟩ := hi
    rw [p1.count_eq, List.count_map_of_injective _ g g1]
    exact h.two j hj
  · exact p2.nodup_iff.2 (h.outer.map g1)
  · intro x hx hc hlen i hi
    obtain ⟨y, hy, e⟩ := hmem x hx
    obtain ⟨j, hj, rfl⟩ := hlab e i hi
    rw [g2]
    have hc' : y.cls = x.cls := (congrArg (fun s => s.1) e).symm
    have hl' : y.upper.list.length = x.upper.list.length := (congrArg (fun s => s.2.1) e).symm
    exact h.active y hy (hc'.trans hc) (by rw [hl']; exact hlen) j hj
  · intro x hx
    obtain ⟨y, hy, e⟩ := hmem x hx
    have hc' : y.cls = x.cls := (congrArg (fun s => s.1) e).symm
    have hu' : y.upper.list.length = x.upper.list.length := (congrArg (fun s => s.2.1) e).symm
    have hl' : y.lower.list.length = x.lower.list.length := (congrArg (fun s => s.2.2.1) e).symm
    rintro (hk | ⟨-, hc, u, l, hu, hl, hcc⟩)
    · exact h.noDelta y hy (Or.inl (hc'.trans hk))
    · apply h.noDelta y hy
      rw [hu] at hu'; rw [hl] at hl'
      obtain ⟨u', hu1⟩ := List.length_eq_one_iff.1 hu'
      obtain ⟨l', hl1⟩ := List.length_eq_one_iff.1 hl'
      refine Or.inr ⟨rfl, hc'.trans hc, u', l', hu1, hl1, ?_⟩
      have hidx := Tensor.indices_one hu1 hl1
      have hidx' := Tensor.indices_one hu hl
      have key : ∀ i ∈ x.pair.indices, i.space.kind = .c → u'.space.kind = .c ∨ l'.space.kind = .c := by
        intro i hi hk
        obtain ⟨j, hj, rfl⟩ := hlab e i hi
        rw [g2] at hk
        rw [hidx] at hj
        simp only [List.mem_cons, List.not_mem_nil, or_false] at hj
        rcases hj with rfl | rfl
        · exact Or.inl hk
        · exact Or.inr hk
      rcases hcc with hcc | hcc
      · exact key u (by simp [hidx']) hcc
      · exact key l (by simp [hidx']) hcc

theorem Tensor.sig_refill (t : Tensor) (b : List Index) (h : b.length = t.pair.size) :
    (t.refill b).sig = (t.cls, t.pair.nUpper, t.pair.nLower, (b : Multiset Index)) := by
  have hl := t.refill_labels b h
  have h1 : (t.refill b).lower.list.length = t.pair.nLower := by
    change (b.take t.pair.nLower).length = _
    rw [List.length_take, h]; unfold IndicesPair.size; omega
  have h2 : (t.refill b).upper.list.length = t.pair.nUpper := by
    change ((b.drop t.pair.nLower).take t.pair.nUpper).length = _
    rw [List.length_take, List.length_drop, h]; unfold IndicesPair.size; omega
  unfold Tensor.sig
  rw [h1, h2]
  have : ((t.refill b).pair.indices : Multiset Index) = (b : Multiset Index) := by
    rw [Multiset.coe_eq_coe]
    refine List.Perm.trans List.perm_append_comm ?_
    show ((t.refill b).lower.list ++ (t.refill b).upper.list).Perm b
    rw [hl]
  rw [this]
  rfl

theorem opShape_refill (op : SqOp) (b : List Index) (h : b.length = op.size) : opShape (op.refill b) = (b : Multiset Index) := by
  unfold opShape
  rw [Multiset.coe_eq_coe]
  refine List.Perm.trans List.perm_append_comm ?_
  show ((op.refill b).lower.list ++ (op.refill b).upper.list).Perm b
  rw [op.refill_labels b h]

theorem shape_append (ts ts' : List Tensor) : shape (ts ++ ts') = shape ts + shape ts' := by
  simp [shape]

theorem shape_cons (t : Tensor) (ts : List Tensor) : shape (t :: ts) = {t.sig} + shape ts := by
  unfold shape
  rw [List.map_cons, ← Multiset.cons_coe, Multiset.singleton_add]

/-- Filled tensors and operator. -/
def FillShape (ts : List Tensor) (op : SqOp) (L L' : List Index) : Prop :=
  SameShape (refillAll ts (L.drop op.size)) (op.refill L) (refillAll ts (L'.drop op.size)) (op.refill L')

theorem opFill (ts : List Tensor) (op : SqOp) (b A : List Index) (hb : b.length = op.size) :
    refillAll ts ((b ++ A).drop op.size) = refillAll ts A ∧ op.refill (b ++ A) = op.refill b := by
  rw [op.refill_append b A hb, List.drop_append_of_le_length (by omega), ← hb, List.drop_length, List.nil_append]
  exact ⟨rfl, rfl⟩

theorem tensorFill (ts₁ ts₂ : List Tensor) (t : Tensor) (op : SqOp) (B₀ B₁ b A : List Index) (h0 : B₀.length = op.size)
    (h1 : B₁.length = slotCount ts₁) (h2 : b.length = t.pair.size) :
    refillAll (ts₁ ++ t :: ts₂) ((B₀ ++ (B₁ ++ (b ++ A))).drop op.size) = refillAll ts₁ B₁ ++ t.refill b :: refillAll ts₂ A ∧
      op.refill (B₀ ++ (B₁ ++ (b ++ A))) = op.refill B₀ := by
  obtain ⟨e1, e2⟩ := opFill (ts₁ ++ t :: ts₂) op B₀ (B₁ ++ (b ++ A)) h0
  rw [e1, e2, refillAll_append _ _ _ _ h1, refillAll_cons _ _ _ _ h2]
  exact ⟨rfl, rfl⟩

theorem refillAll_map (f : Index → Index) : ∀ (ts : List Tensor) (L : List Index),
    refillAll ts (L.map f) = (refillAll ts L).map (Tensor.relabel f) := by
  intro ts
  induction ts with
  | nil => intro L; rfl
  | cons t ts ih =>
    intro L
    rw [refillAll, refillAll, List.map_cons, ← List.map_drop, ih]
    congr 1
    simp [Tensor.refill, Tensor.relabel, Tensor.upper, Tensor.lower, List.map_take, List.map_drop]

theorem refill_map (f : Index → Index) (op : SqOp) (L : List Index) : op.refill (L.map f) = (op.refill L).relabel f := by
  simp [IndicesPair.refill, IndicesPair.relabel, List.map_take, List.map_drop]

theorem sameShape_relabel {f : Index → Index} (hf : Function.Injective f) (hsp : ∀ i, (f i).space = i.space) (ts : List Tensor) (op : SqOp) :
    SameShape ts op (ts.map (Tensor.relabel f)) (op.relabel f) := by
  refine ⟨f, hf, hsp, ?_, ?_⟩
  · unfold shape
    rw [Multiset.map_coe, List.map_map, List.map_map]
    congr 2
    funext x
    simp [Tensor.sig, sigMap, Tensor.relabel, IndicesPair.indices, Tensor.upper, Tensor.lower]
  · unfold opShape
    rw [Multiset.map_coe]
    simp [IndicesPair.relabel, IndicesPair.indices]

/-- One symmetry. -/
theorem symStep_shape {ts : List Tensor} {op : SqOp} {hermitian anti : Bool} {v : List SlotGroup} {D : List Index}
    (hv : bsgsList ts op hermitian = .ok v) (hD : D.Nodup) (hty : ∀ t ∈ ts, t.upper.ty.isAntisym = anti) (hop : op.upper.ty.isAntisym = anti)
    (hbal : op.nUpper = op.nLower) (hkind : ∀ x ∈ ts, ∀ y ∈ ts, x.name = y.name → x.cls = y.cls)
    {names : List Nat} {s s' : Nat} (hlen : names.length = op.size + slotCount ts) {y : List Nat}
    (hstep : SymStep (dummyRanges 0 (spaceGroups D)) v (names ++ [s, s']) y) :
    ∃ (names' : List Nat) (flip : Bool), y = names' ++ (if flip then [s', s] else [s, s']) ∧ names'.length = op.size + slotCount ts ∧
      ((∀ n ∈ names', n < 2 * D.length) → ∀ n ∈ names, n < 2 * D.length) ∧
      ((∀ n ∈ names, n < 2 * D.length) → FillShape ts op (names.map (look D)) (names'.map (look D))) := by
  have hbalT := (bsgsList_ok hv).1
  generalize hx : names ++ [s, s'] = x at hstep
  cases hstep with
  | slots e k p before b b' after s₀ s₀' r r' hat hp hb hperm =>
    obtain ⟨rfl, rfl, rfl⟩ := append_two_inj hx
    have finish : ∀ flip : Bool, b'.Perm b → (FillShape ts op ((before ++ b ++ after).map (look D)) ((before ++ b' ++ after).map (look D))) →
        [r, r'] = (if flip then [s', s] else [s, s']) →
        ∃ (names' : List Nat) (flip : Bool), before ++ b' ++ after ++ [r, r'] = names' ++ (if flip then [s', s] else [s, s']) ∧
          names'.length = op.size + slotCount ts ∧
          ((∀ n ∈ names', n < 2 * D.length) → ∀ n ∈ before ++ b ++ after, n < 2 * D.length) ∧
          ((∀ n ∈ before ++ b ++ after, n < 2 * D.length) → FillShape ts op ((before ++ b ++ after).map (look D)) (names'.map (look D))) := by
      intro flip hpm hval hr
      have hpm' : (before ++ b' ++ after).Perm (before ++ b ++ after) := (List.Perm.append_left _ hpm).append_right _
      refine ⟨before ++ b' ++ after, flip, by rw [hr], hpm'.length_eq.trans hlen, ?_, ?_⟩
      · intro h n hn; exact h n (hpm'.mem_iff.2 hn)
      · intro _; exact hval
    rcases entry_cases hv hat with ⟨-, hoff, -, -, hsz, hg⟩ | ⟨ts₁, t, ts₂, t₀, hts, hoff, hsz, ht₀, hg, hn₀, -⟩
    · have hb0 : before = [] := List.eq_nil_of_length_eq_zero hoff
      subst hb0
      rw [hsz] at hb
      unfold IndicesPair.opBsgs at hg
      have hb2 : b.length = op.nLower + op.nLower := by rw [hb]; unfold IndicesPair.size; omega
      have hall : (r = s ∧ r' = s' ∧ b' = b) ∨ (anti = true ∧ ((r = s ∧ r' = s' ∧ BlockMove true false op.nLower b b' false) ∨
          (r = s' ∧ r' = s ∧ BlockMove true false op.nLower b b' true))) := by
        split_ifs at hg with ha
        · right
          rw [hop] at ha
          refine ⟨ha, ?_⟩
          rcases bsgs_move hg hbal rfl hp hb2 hperm with h | ⟨-, h⟩
          · exact absurd h.1 (by decide)
          · rw [hop, ha] at h; exact h
        · left
          rcases bsgs_move hg hbal rfl hp hb2 hperm with h | h
          · exact h.2
          · exact absurd h.1 (by decide)
      have opFinish : ∀ flip : Bool, b'.Perm b → [r, r'] = (if flip then [s', s] else [s, s']) → _ :=
        fun (flip : Bool) hm hr => finish flip hm (by
          unfold FillShape
          rw [List.nil_append, List.nil_append, List.map_append, List.map_append]
          obtain ⟨e1, e2⟩ := opFill ts op (b.map (look D)) (after.map (look D)) (by simpa using hb)
          obtain ⟨e3, e4⟩ := opFill ts op (b'.map (look D)) (after.map (look D)) (by rw [List.length_map, hm.length_eq]; exact hb)
          rw [e1, e2, e3, e4]
          refine ⟨id, Function.injective_id, fun _ => rfl, ?_, ?_⟩
          · rw [show sigMap id = id from funext sigMap_id, Multiset.map_id]
          · rw [Multiset.map_id, opShape_refill op (b.map (look D)) (by simpa using hb), opShape_refill op (b'.map (look D)) (by rw [List.length_map, hm.length_eq]; exact hb),
              Multiset.coe_eq_coe]
            exact hm.map _) hr
      rcases hall with ⟨rfl, rfl, rfl⟩ | ⟨ha, ⟨rfl, rfl, hm⟩ | ⟨rfl, rfl, hm⟩⟩
      · exact opFinish false (.refl _) rfl
      · exact opFinish false hm.perm rfl
      · exact opFinish true hm.perm rfl
    · have ht : t ∈ ts := by rw [hts]; simp
      have hn := hbalT t ht
      rw [hsz] at hb
      have hb2 : b.length = t.pair.nLower + t.pair.nLower := by rw [hb]; unfold IndicesPair.size; omega
      have hall := bsgs_move hg ((hbalT t₀ ht₀).trans hn₀) hn₀ hp hb2 hperm
      obtain ⟨B₀, B₁, rfl, hB₀⟩ : ∃ B₀ B₁, before = B₀ ++ B₁ ∧ B₀.length = op.size :=
        ⟨before.take op.size, before.drop op.size, (List.take_append_drop _ _).symm, by simp; omega⟩
      have hB₁ : B₁.length = slotCount ts₁ := by rw [List.length_append] at hoff; omega
      have tFinish : ∀ flip : Bool, b'.Perm b → [r, r'] = (if flip then [s', s] else [s, s']) → _ :=
        fun (flip : Bool) hm hr => finish flip hm (by
          have e : ∀ c : List Nat, (B₀ ++ B₁ ++ c ++ after).map (look D) =
              B₀.map (look D) ++ (B₁.map (look D) ++ (c.map (look D) ++ after.map (look D))) := by intro c; simp
          unfold FillShape
          have hbl : (b.map (look D)).length = t.pair.size := by simpa using hb
          have hbl' : (b'.map (look D)).length = t.pair.size := by rw [List.length_map, hm.length_eq]; exact hb
          rw [e, e, hts]
          obtain ⟨e1, e2⟩ := tensorFill ts₁ ts₂ t op (B₀.map (look D)) (B₁.map (look D)) _ (after.map (look D)) (by simpa using hB₀)
            (by simpa using hB₁) hbl
          obtain ⟨e3, e4⟩ := tensorFill ts₁ ts₂ t op (B₀.map (look D)) (B₁.map (look D)) _ (after.map (look D)) (by simpa using hB₀)
            (by simpa using hB₁) hbl'
          rw [e1, e2, e3, e4]
          refine ⟨id, Function.injective_id, fun _ => rfl, ?_, by simp⟩
          rw [show sigMap id = id from funext sigMap_id, Multiset.map_id, shape_append, shape_append, shape_cons, shape_cons,
            t.sig_refill _ hbl, t.sig_refill _ hbl', Multiset.coe_eq_coe.2 (hm.map (look D))]) hr
      rcases hall with h | ⟨-, ⟨rfl, rfl, hm⟩ | ⟨rfl, rfl, hm⟩⟩
      · exact absurd h.1 (by decide)
      · exact tFinish false hm.perm rfl
      · exact tFinish true hm.perm rfl
  | exchange e k before b b' after s₀ s₀' hat hk hb hb' =>
    obtain ⟨rfl, rfl, rfl⟩ := append_two_inj hx
    have hpm : (before ++ b' ++ b ++ after).Perm (before ++ b ++ b' ++ after) := by
      apply List.Perm.append_right
      rw [List.append_assoc, List.append_assoc]
      exact List.Perm.append_left _ List.perm_append_comm
    refine ⟨before ++ b' ++ b ++ after, false, rfl, hpm.length_eq.trans hlen, fun h n hn => h n (hpm.mem_iff.2 hn), fun _ => ?_⟩
    rcases entry_cases hv hat with ⟨-, -, -, hc, -⟩ | ⟨ts₁, t, ts₂, t₀, hts, hoff, hsz, ht₀, hg, hn₀, hnext⟩
    · omega
    · obtain ⟨t', ts₃, rfl, hname, hnl⟩ := hnext hk
      have ht : t ∈ ts := by rw [hts]; simp
      have ht' : t' ∈ ts := by rw [hts]; simp
      have hn := hbalT t ht
      have hn' := hbalT t' ht'
      have hcls := hkind t' ht' t ht hname
      rw [hsz] at hb hb'
      have hsz' : t'.pair.size = t.pair.size := by unfold IndicesPair.size; omega
      obtain ⟨B₀, B₁, rfl, hB₀⟩ : ∃ B₀ B₁, before = B₀ ++ B₁ ∧ B₀.length = op.size :=
        ⟨before.take op.size, before.drop op.size, (List.take_append_drop _ _).symm, by simp; omega⟩
      have hB₁ : B₁.length = slotCount ts₁ := by rw [List.length_append] at hoff; omega
      have e : ∀ c c' : List Nat, (B₀ ++ B₁ ++ c ++ c' ++ after).map (look D) =
          B₀.map (look D) ++ (B₁.map (look D) ++ (c.map (look D) ++ (c'.map (look D) ++ after.map (look D)))) := by intro c c'; simp
      have hl1 : (b.map (look D)).length = t.pair.size := by simpa using hb
      have hl2 : (b'.map (look D)).length = t.pair.size := by simpa using hb'
      unfold FillShape
      rw [e, e, hts]
      obtain ⟨e1, e2⟩ := tensorFill ts₁ (t' :: ts₃) t op (B₀.map (look D)) (B₁.map (look D)) _ (b'.map (look D) ++ after.map (look D))
        (by simpa using hB₀) (by simpa using hB₁) hl1
      obtain ⟨e3, e4⟩ := tensorFill ts₁ (t' :: ts₃) t op (B₀.map (look D)) (B₁.map (look D)) _ (b.map (look D) ++ after.map (look D))
        (by simpa using hB₀) (by simpa using hB₁) hl2
      rw [e1, e2, e3, e4, refillAll_cons _ _ (b.map (look D)) _ (by rw [hsz']; exact hl1), refillAll_cons _ _ (b'.map (look D)) _ (by rw [hsz']; exact hl2)]
      refine ⟨id, Function.injective_id, fun _ => rfl, ?_, by simp⟩
      rw [show sigMap id = id from funext sigMap_id, Multiset.map_id]
      simp only [shape_append, shape_cons]
      rw [t.sig_refill _ hl1, t.sig_refill _ hl2, t'.sig_refill _ (by rw [hsz']; exact hl1), t'.sig_refill _ (by rw [hsz']; exact hl2),
        hcls, hnl, show t'.pair.nUpper = t.pair.nUpper by omega]
      congr 1
      rw [← add_assoc, ← add_assoc]
      congr 1
      exact add_comm _ _
  | ends d i g s₀ s₀' hd h1 h2 =>
    obtain ⟨rfl, rfl, rfl⟩ := append_two_inj hx
    obtain ⟨hi, -, -⟩ := dummy_space hd h1 h2 h1 h2
    refine ⟨names.map (Equiv.swap (2 * i) (2 * i + 1)), false, rfl, by simpa using hlen, ?_, ?_⟩
    · intro h n hn
      have := swap_lt (n := 2 * D.length) (i := 2 * i) (j := 2 * i + 1) (by omega) (by omega) _ (h _ (List.mem_map_of_mem hn))
      rwa [Equiv.swap_apply_self] at this
    · intro _
      rw [List.map_map]
      have : (look D ∘ ⇑(Equiv.swap (2 * i) (2 * i + 1))) = look D := by funext n; exact look_swap_ends D i n
      rw [this]; exact SameShape.refl _ _
  | rename d i j g s₀ s₀' hd h1 h2 h3 h4 =>
    obtain ⟨rfl, rfl, rfl⟩ := append_two_inj hx
    obtain ⟨hi, hj, hsp⟩ := dummy_space hd h1 h2 h3 h4
    refine ⟨names.map (renamePair i j), false, rfl, by simpa using hlen, ?_, ?_⟩
    · intro h n hn
      have := h _ (List.mem_map_of_mem hn)
      rcases renamePair_cases i j n with ⟨h1, h2⟩ | ⟨h1, h2⟩ | ⟨h1, h2, h3⟩
      · omega
      · omega
      · rwa [h3] at this
    · intro h
      have e : (names.map (renamePair i j)).map (look D) = (names.map (look D)).map (Equiv.swap D[i] D[j]) := by
        rw [List.map_map, List.map_map]
        apply List.map_congr_left
        intro n hn
        exact look_renamePair hD hi hj (h n hn)
      unfold FillShape
      rw [e, ← List.map_drop (f := ⇑(Equiv.swap D[i] D[j])), refillAll_map ⇑(Equiv.swap D[i] D[j]), refill_map ⇑(Equiv.swap D[i] D[j])]
      refine sameShape_relabel (Equiv.injective _) ?_ _ _
      intro m
      rw [Equiv.swap_apply_def]
      split_ifs with k1 k2
      · rw [k1, hsp]
      · rw [k2, hsp]
      · rfl

/-- Any number of symmetries. -/
theorem symSteps_shape {ts : List Tensor} {op : SqOp} {hermitian anti : Bool} {v : List SlotGroup} {D : List Index}
    (hv : bsgsList ts op hermitian = .ok v) (hD : D.Nodup) (hty : ∀ t ∈ ts, t.upper.ty.isAntisym = anti) (hop : op.upper.ty.isAntisym = anti)
    (hbal : op.nUpper = op.nLower) (hkind : ∀ x ∈ ts, ∀ y ∈ ts, x.name = y.name → x.cls = y.cls)
    {names : List Nat} {s s' : Nat} (hlen : names.length = op.size + slotCount ts) {y : List Nat}
    (hsteps : Relation.ReflTransGen (SymStep (dummyRanges 0 (spaceGroups D)) v) (names ++ [s, s']) y) :
    ∃ (names' : List Nat) (flip : Bool), y = names' ++ (if flip then [s', s] else [s, s']) ∧ names'.length = op.size + slotCount ts ∧
      ((∀ n ∈ names', n < 2 * D.length) → (∀ n ∈ names, n < 2 * D.length) ∧ FillShape ts op (names.map (look D)) (names'.map (look D))) := by
  induction hsteps with
  | refl => exact ⟨names, false, rfl, hlen, fun h => ⟨h, SameShape.refl _ _⟩⟩
  | @tail _ z _ hstep ih =>
    obtain ⟨names₁, f₁, rfl, hl₁, hr₁⟩ := ih
    have main : ∃ (names₂ : List Nat) (f₂ : Bool), z = names₂ ++ (if f₂ then (if f₁ then [s, s'] else [s', s]) else (if f₁ then [s', s] else [s, s'])) ∧
        names₂.length = op.size + slotCount ts ∧ ((∀ n ∈ names₂, n < 2 * D.length) → ∀ n ∈ names₁, n < 2 * D.length) ∧
        ((∀ n ∈ names₁, n < 2 * D.length) → FillShape ts op (names₁.map (look D)) (names₂.map (look D))) := by
      cases f₁
      · exact symStep_shape hv hD hty hop hbal hkind hl₁ hstep
      · exact symStep_shape hv hD hty hop hbal hkind hl₁ hstep
    obtain ⟨names₂, f₂, rfl, hl₂, h1, h2⟩ := main
    refine ⟨names₂, f₁ ^^ f₂, by cases f₁ <;> cases f₂ <;> rfl, hl₂, fun h => ?_⟩
    obtain ⟨k1, k2⟩ := hr₁ (h1 h)
    exact ⟨k1, k2.trans (h2 (h1 h))⟩

theorem sameShape_relabel_on {f : Index → Index} {ts : List Tensor} {op : SqOp} (h : Tidy ts op)
    (hf : ∀ i ∈ labelsOf ts op, ∀ j ∈ labelsOf ts op, f i = f j → i = j) (hsp : ∀ i ∈ labelsOf ts op, (f i).space = i.space) :
    Tidy (ts.map (Tensor.relabel f)) (op.relabel f) := by
  have hf' : ∀ i ∈ labelList ts op, ∀ j ∈ labelList ts op, f i = f j → i = j :=
    fun i hi j hj => hf i (mem_labelsOf.2 hi) j (mem_labelsOf.2 hj)
  have hin : ∀ i ∈ outerList ts op, i ∈ labelList ts op := by
    intro i hi
    unfold outerList at hi
    rw [List.mem_append] at hi
    rw [mem_labelList]
    rcases hi with hi | hi
    · exact Or.inl hi
    · obtain ⟨x, hx, hi⟩ := List.mem_flatMap.1 hi
      exact Or.inr ⟨x, (List.mem_filter.1 hx).1, hi⟩
  have hpair : ∀ x ∈ ts, ∀ i ∈ x.pair.indices, (f i).space = i.space :=
    fun x hx i hi => hsp i (mem_labelsOf.2 (mem_labelList.2 (Or.inr ⟨x, hx, hi⟩)))
  refine ⟨⟨?_, ?_, ?_⟩, ?_⟩
  · rw [labelList_relabel]
    intro k hk
    obtain ⟨i, hi, rfl⟩ := List.mem_map.1 hk
    rw [count_map_of_inj i _ fun j hj e => hf' j hj i hi e]
    exact h.two i hi
  · rw [outerList_relabel]
    exact nodup_map_of (fun a ha b hb e => hf' a (hin a ha) b (hin b hb) e) h.outer
  · intro y hy hc hlen i hi
    obtain ⟨x, hx, rfl⟩ := List.mem_map.1 hy
    have hlen' : x.upper.list.length ≠ 1 := by simpa [Tensor.relabel, Tensor.upper] using hlen
    simp only [Tensor.relabel, Tensor.upper, Tensor.lower, ← List.map_append, List.mem_map] at hi
    obtain ⟨j, hj, rfl⟩ := hi
    rw [hpair x hx j hj]
    exact h.active x hx hc hlen' j hj
  · intro y hy
    obtain ⟨x, hx, rfl⟩ := List.mem_map.1 hy
    rintro (hk | ⟨-, hc, u, l, hu, hl, hcc⟩)
    · exact h.noDelta x hx (Or.inl hk)
    · have hu' : x.upper.list.map f = [u] := hu
      have hl' : x.lower.list.map f = [l] := hl
      obtain ⟨u', hu1, rfl⟩ := List.map_eq_singleton_iff.1 hu'
      obtain ⟨l', hl1, rfl⟩ := List.map_eq_singleton_iff.1 hl'
      have hidx := Tensor.indices_one hu1 hl1
      rw [hpair x hx u' (by simp [hidx]), hpair x hx l' (by simp [hidx])] at hcc
      exact h.noDelta x hx (Or.inr ⟨rfl, hc, u', l', hu1, hl1, hcc⟩)

/-- What follows simplification in `canonicalize_sympy` keeps a tidy term tidy. -/
theorem Term.sympy_tidy {canon : List Nat → List (Nat × Nat) → List SlotGroup → Option (List Nat)} (hcanon : CanonContract canon)
    {s r : Term} {hermitian : Bool} (hs : labelsOf s.tensors s.sqOp ⊆ s.indicesSet) (htidy : Tidy s.tensors s.sqOp)
    (hbal : s.sqOp.upper.list.length = s.sqOp.lower.list.length)
    (hkind : ∀ x ∈ s.tensors, ∀ y ∈ s.tensors, x.name = y.name → x.cls = y.cls)
    {names : List Nat} (hnames : slotNames (dictFind s.minimalIndices) (fun m => 2 * (sortedDummies s.minimalIndices).idxOf m)
      (slotLabels s.tensors s.sqOp) = .ok names)
    {v : List SlotGroup} (hv : bsgsList s.tensors s.sqOp hermitian = .ok v)
    (hperm : (names ++ [names.length, names.length + 1]).Perm (List.range (names ++ [names.length, names.length + 1]).length))
    {gc : List Nat} (hgc : canon (names ++ [names.length, names.length + 1]) (dummyRanges 0 (spaceGroups (sortedDummies s.minimalIndices))) v = some gc)
    {op : SqOp} (hop : rebuildOp (sortedDummies s.minimalIndices) s.sqOp gc = .ok op)
    {ts : List Tensor} (hts : rebuildTensors (sortedDummies s.minimalIndices) s.tensors (gc.drop s.sqOp.size) = .ok ts)
    {c : ℚ} (hr : Term.make ts op c = .ok r) :
    Tidy r.tensors r.sqOp ∧ r.sqOp.upper.list.length = r.sqOp.lower.list.length ∧
      r.sqOp.upper.list.length = s.sqOp.upper.list.length ∧
      (∀ i ∈ labelsOf r.tensors r.sqOp, i ∈ sortedDummies s.minimalIndices) ∧
      ((∀ x ∈ s.tensors, x.pair.indices.Nodup) → ∀ x ∈ r.tensors, x.pair.indices.Nodup) := by
  set D := sortedDummies s.minimalIndices with hDdef
  set f := dictFun s.minimalIndices with hf
  obtain ⟨hD, hDm⟩ := sortedDummies_spec hs
  rw [← hDdef] at hD hDm
  obtain ⟨next, hm, hkeys⟩ := minimalIndices_spec s hs
  have hnl := (slotNames_spec (realizes_dictFind _) _ _ _ hnames).1
  rw [slotLabels_length] at hnl
  obtain ⟨rfl, hop2⟩ := rebuildOp_ok hop
  obtain ⟨rfl, hts2⟩ := rebuildTensors_ok hts
  obtain ⟨hty, -, -, rfl⟩ := Term.make_ok.1 hr
  have htyall : ∀ t ∈ s.tensors, t.upper.ty.isAntisym = s.sqOp.upper.ty.isAntisym := by
    have : ∀ (ts : List Tensor) (L : List Index), (∀ x ∈ refillAll ts L, x.upper.ty = s.sqOp.upper.ty) → ∀ t ∈ ts, t.upper.ty = s.sqOp.upper.ty := by
      intro ts
      induction ts with
      | nil => intro L _ t ht; simp at ht
      | cons x ts ih =>
        intro L h t ht
        rw [refillAll, List.forall_mem_cons] at h
        rcases List.mem_cons.1 ht with rfl | ht
        · exact h.1
        · exact ih _ h.2 t ht
    intro t ht
    rw [this _ _ hty t ht]
  obtain ⟨names', flip, rfl, hl', hval⟩ := symSteps_shape hv hD htyall rfl hbal hkind hnl (hcanon.reach _ _ _ _ hgc)
  have hsplit : names' = names'.take s.sqOp.size ++ names'.drop s.sqOp.size := (List.take_append_drop _ _).symm
  have htk : (names'.take s.sqOp.size).length = s.sqOp.size := by simp; omega
  have hdl : (names'.drop s.sqOp.size).length = slotCount s.tensors := by simp; omega
  have hrange : ∀ n ∈ names', n < 2 * D.length := by
    intro n hn
    rw [hsplit, List.mem_append] at hn
    rcases hn with hn | hn
    · exact hop2 n (by rw [List.take_append_of_le_length (by omega)]; exact hn)
    · refine hts2 n ?_
      rw [List.drop_append_of_le_length (by omega), List.take_append_of_le_length (by omega), ← hdl, List.take_length]; exact hn
  obtain ⟨hrange0, hval⟩ := hval hrange
  have hnd : names.Nodup := by
    have := hperm.nodup_iff.2 List.nodup_range
    exact (List.nodup_append.1 this).1
  have hlook := slotNames_look (realizes_dictFind _) hD hDm hnames hnd hrange0
  have e1 : ∀ junk : List Nat, refillAll s.tensors (((names' ++ junk).drop s.sqOp.size).map (look D)) =
      refillAll s.tensors ((names'.map (look D)).drop s.sqOp.size) := by
    intro junk
    rw [List.drop_append_of_le_length (by omega), List.map_append]
    have := refillAll_append s.tensors [] ((names'.drop s.sqOp.size).map (look D)) (junk.map (look D)) (by simpa using hdl)
    rw [List.append_nil] at this
    rw [this, refillAll, List.append_nil, List.map_drop]
  have e2 : ∀ junk : List Nat, s.sqOp.refill ((names' ++ junk).map (look D)) = s.sqOp.refill (names'.map (look D)) := by
    intro junk
    have e : names' ++ junk = names'.take s.sqOp.size ++ (names'.drop s.sqOp.size ++ junk) := by
      rw [← List.append_assoc, List.take_append_drop]
    have e' : names'.map (look D) = (names'.take s.sqOp.size).map (look D) ++ (names'.drop s.sqOp.size).map (look D) := by
      rw [← List.map_append, List.take_append_drop]
    rw [e, List.map_append, s.sqOp.refill_append _ _ (by simpa using htk), e', s.sqOp.refill_append _ _ (by simpa using htk)]
  simp only []
  have hsz : s.sqOp.size = s.sqOp.nUpper + s.sqOp.nLower := rfl
  have hnu : s.sqOp.nUpper = s.sqOp.upper.list.length := rfl
  have hnlo : s.sqOp.nLower = s.sqOp.lower.list.length := rfl
  have hlenU : ∀ L : List Index, s.sqOp.size ≤ L.length → (s.sqOp.refill L).upper.list.length = s.sqOp.nUpper ∧
      (s.sqOp.refill L).lower.list.length = s.sqOp.nLower := by
    intro L hL
    constructor
    · show ((L.drop s.sqOp.nLower).take s.sqOp.nUpper).length = _
      rw [List.length_take, List.length_drop]; omega
    · show (L.take s.sqOp.nLower).length = _
      rw [List.length_take]; omega
  rw [e1, e2]
  have hL' : s.sqOp.size ≤ (names'.map (look D)).length := by rw [List.length_map]; omega
  refine ⟨?_, ?_, ?_, ?_, ?_⟩
  · refine Tidy.perm ?_ (sortTensors_perm _).symm
    refine Tidy.of_sameShape ?_ hval
    rw [hlook]
    obtain ⟨h1, h2⟩ := refill_slotLabels f s.tensors s.sqOp
    rw [h1, h2]
    refine sameShape_relabel_on htidy ?_ ?_
    · exact fun i hi j hj e => hm.injOn ((hkeys i).2 hi) ((hkeys j).2 hj) e
    · exact fun i hi => hm.space _ (dictFind_ok hm.keys ((hkeys i).2 hi)).2
  · rw [(hlenU _ hL').1, (hlenU _ hL').2, hnu, hnlo]; exact hbal
  · exact (hlenU _ hL').1
  · intro i hi
    rw [labelsOf_perm (sortTensors_perm _)] at hi
    rw [labelsOf_refill _ _ _ (by simpa using hl'), List.mem_toFinset, List.mem_map] at hi
    obtain ⟨n, hn, rfl⟩ := hi
    have := hrange n hn
    rw [look_of_lt (by omega)]
    exact List.getElem_mem _
  · intro hn x hx
    refine nodup_of_sameShape ?_ hval x ((sortTensors_perm _).mem_iff.1 hx)
    rw [hlook]
    obtain ⟨-, h2⟩ := refill_slotLabels f s.tensors s.sqOp
    rw [h2]
    intro y hy
    obtain ⟨z, hz, rfl⟩ := List.mem_map.1 hy
    show (z.pair.relabel f).indices.Nodup
    have : (z.pair.relabel f).indices = z.pair.indices.map f := by simp [IndicesPair.indices, IndicesPair.relabel]
    rw [this]
    refine nodup_map_of ?_ (hn z hz)
    intro a ha b hb e
    have hin : ∀ c ∈ z.pair.indices, c ∈ labelsOf s.tensors s.sqOp := fun c hc => mem_labelsOf.2 (mem_labelList.2 (Or.inr ⟨z, hz, hc⟩))
    exact hm.injOn ((hkeys a).2 (hin a ha)) ((hkeys b).2 (hin b hb)) e

/-- A canonicalized term is tidy, if the original one was paired. -/
theorem Term.canonicalizeSympy_tidy {canon : List Nat → List (Nat × Nat) → List SlotGroup → Option (List Nat)} (hcanon : CanonContract canon)
    {ord : SetOrder} (hord : ord.Lawful) {t r : Term} {removeActive hermitian : Bool} (hw : t.WF)
    (hdiag : t.diag = diagonalOf t.tensors t.sqOp) (hp : Paired t.tensors t.sqOp)
    (hbal : t.sqOp.upper.list.length = t.sqOp.lower.list.length)
    (hkind : ∀ x ∈ t.tensors, ∀ y ∈ t.tensors, x.name = y.name → x.cls = y.cls)
    (hr : t.canonicalizeSympy canon ord true removeActive hermitian = .ok r) :
    Tidy r.tensors r.sqOp ∧ r.sqOp.upper.list.length = r.sqOp.lower.list.length ∧
      ((∀ x ∈ t.tensors, x.pair.indices.Nodup) →
        (∀ x ∈ t.tensors, x.isDensity = false → ∀ i ∈ x.pair.indices, ∀ j ∈ x.pair.indices, Merged t.tensors i j → i = j) →
        ∀ x ∈ r.tensors, x.pair.indices.Nodup) := by
  unfold Term.canonicalizeSympy at hr
  simp only [bind, Except.bind] at hr
  cases hs : t.simplify ord true removeActive with
  | error e => rw [hs] at hr; simp at hr
  | ok s =>
  rw [hs] at hr
  simp only [] at hr
  obtain ⟨htidy, hb, hdis⟩ := Term.simplify_tidy hord hw hdiag.subset hp hs
  obtain ⟨f, hf, -⟩ := Term.simplify_origin hs
  obtain ⟨hset, -⟩ := Term.simplify_shape hw.set_sub hs
  by_cases hv : s.isVoid = true
  · rw [if_pos hv] at hr
    unfold Term.void at hr
    obtain ⟨-, -, -, rfl⟩ := Term.make_ok.1 hr
    exact ⟨tidy_nil rfl rfl, rfl, by simp [sortTensors]⟩
  rw [if_neg hv] at hr
  cases hn : slotNames (dictFind s.minimalIndices) (fun m => 2 * (sortedDummies s.minimalIndices).idxOf m) (slotLabels s.tensors s.sqOp) with
  | error e => rw [hn] at hr; simp at hr
  | ok names =>
  rw [hn] at hr
  simp only [] at hr
  cases hbs : bsgsList s.tensors s.sqOp hermitian with
  | error e => rw [hbs] at hr; simp at hr
  | ok v =>
  rw [hbs] at hr
  simp only [] at hr
  split_ifs at hr with hpm
  cases hg : canon (names ++ [names.length, names.length + 1]) (dummyRanges 0 (spaceGroups (sortedDummies s.minimalIndices))) v with
  | none => rw [hg] at hr; simp at hr
  | some gc =>
  rw [hg] at hr
  simp only [] at hr
  cases hop : rebuildOp (sortedDummies s.minimalIndices) s.sqOp gc with
  | error e => rw [hop] at hr; simp at hr
  | ok op' =>
  rw [hop] at hr
  simp only [] at hr
  cases hts : rebuildTensors (sortedDummies s.minimalIndices) s.tensors (gc.drop s.sqOp.size) with
  | error e => rw [hts] at hr; simp at hr
  | ok ts' =>
  rw [hts] at hr
  simp only [] at hr
  have hk : ∀ x ∈ s.tensors, ∀ y ∈ s.tensors, x.name = y.name → x.cls = y.cls := by
    intro x hx y hy e
    obtain ⟨x', hx', -, rfl⟩ := hf x hx
    obtain ⟨y', hy', -, rfl⟩ := hf y hy
    exact hkind x' hx' y' hy' e
  obtain ⟨h1, h2, -, -, h3⟩ := Term.sympy_tidy hcanon hset htidy (hb hbal) hk hn hbs hpm hg hop hts hr
  exact ⟨h1, h2, fun a b => h3 (hdis a b)⟩

theorem mem_refill {op : SqOp} {L : List Index} {i : Index} (h : i ∈ (op.refill L).indices) : i ∈ L.take op.size := by
  have hsz : op.size = op.nUpper + op.nLower := rfl
  have h' : i ∈ (L.drop op.nLower).take op.nUpper ++ L.take op.nLower := h
  rw [hsz, Nat.add_comm, List.take_add]
  rw [List.mem_append] at h' ⊢
  exact h'.symm

theorem mem_refillAll_label : ∀ {ts : List Tensor} {L : List Index} {x : Tensor}, x ∈ refillAll ts L → ∀ {i : Index}, i ∈ x.pair.indices →
    i ∈ L.take (slotCount ts) := by
  intro ts
  induction ts with
  | nil => intro L x hx; simp [refillAll] at hx
  | cons t ts ih =>
    intro L x hx i hi
    rw [slotCount_cons, List.take_add, List.mem_append]
    rw [refillAll] at hx
    rcases List.mem_cons.1 hx with rfl | hx
    · exact Or.inl (mem_refill (op := t.pair) hi)
    · exact Or.inr (ih hx hi)

/-- Minimal labels have small numbers. -/
theorem minimalDict_number {d : Dict Index Index} {next : Space → Nat} (h : MinimalDict d next) {i : Index} (hi : i ∈ d.map Prod.snd) :
    i.number < d.length := by
  obtain ⟨e, he, rfl⟩ := List.mem_map.1 hi
  refine lt_of_lt_of_le (h.lt e he) ?_
  have hnd : ((List.range (next e.2.space)).map fun n => (⟨e.2.space, n⟩ : Index)).Nodup :=
    List.nodup_range.map fun a b hab => by simpa using hab
  have hsub : ((List.range (next e.2.space)).map fun n => (⟨e.2.space, n⟩ : Index)) ⊆ d.map Prod.snd := by
    intro j hj
    obtain ⟨n, hn, rfl⟩ := List.mem_map.1 hj
    obtain ⟨e', he', e2⟩ := h.all e.2.space n (List.mem_range.1 hn)
    exact List.mem_map.2 ⟨e', he', e2⟩
  have := (hnd.subperm hsub).length_le
  simpa using this

theorem indices_relabel (f : Index → Index) (x : IndicesPair) : (x.relabel f).indices = x.indices.map f := by
  simp [IndicesPair.indices, IndicesPair.relabel]

/-- The labels of a canonicalized term: no more than the term had, and their numbers are small. -/
theorem Term.canonicalizeSympy_labels {canon : List Nat → List (Nat × Nat) → List SlotGroup → Option (List Nat)}
    {ord : SetOrder} {t r : Term} {core removeActive hermitian : Bool} (hw : labelsOf t.tensors t.sqOp ⊆ t.indicesSet)
    (hr : t.canonicalizeSympy canon ord core removeActive hermitian = .ok r) :
    (labelsOf r.tensors r.sqOp).card ≤ (labelsOf t.tensors t.sqOp).card ∧
      ∀ i ∈ labelsOf r.tensors r.sqOp, i.number < (labelsOf t.tensors t.sqOp).card := by
  unfold Term.canonicalizeSympy at hr
  simp only [bind, Except.bind] at hr
  cases hs : t.simplify ord core removeActive with
  | error e => rw [hs] at hr; simp at hr
  | ok s =>
  rw [hs] at hr
  simp only [] at hr
  obtain ⟨f, hf, ho⟩ := Term.simplify_origin hs
  obtain ⟨hset, -⟩ := Term.simplify_shape hw hs
  have hle : (labelsOf s.tensors s.sqOp).card ≤ (labelsOf t.tensors t.sqOp).card := by
    have hsub : labelsOf s.tensors s.sqOp ⊆ (labelsOf t.tensors t.sqOp).image f := by
      intro i hi
      rw [mem_labelsOf, mem_labelList] at hi
      rw [Finset.mem_image]
      rcases hi with hi | ⟨y, hy, hi⟩
      · rcases ho with ho | ⟨ho, -⟩
        · rw [ho, indices_relabel] at hi
          obtain ⟨j, hj, rfl⟩ := List.mem_map.1 hi
          exact ⟨j, mem_labelsOf.2 (mem_labelList.2 (Or.inl hj)), rfl⟩
        · rw [ho] at hi
          exact absurd hi (by simp [IndicesPair.void, IndicesPair.indices])
      · obtain ⟨x, hx, -, rfl⟩ := hf y hy
        rw [show (x.relabel f).pair = x.pair.relabel f from rfl, indices_relabel] at hi
        obtain ⟨j, hj, rfl⟩ := List.mem_map.1 hi
        exact ⟨j, mem_labelsOf.2 (mem_labelList.2 (Or.inr ⟨x, hx, hj⟩)), rfl⟩
    exact (Finset.card_le_card hsub).trans Finset.card_image_le
  by_cases hv : s.isVoid = true
  · rw [if_pos hv] at hr
    unfold Term.void at hr
    obtain ⟨-, -, -, rfl⟩ := Term.make_ok.1 hr
    have : labelsOf (sortTensors []) s.sqOp.void = ∅ := rfl
    simp only [] at this ⊢
    rw [this]
    simp
  rw [if_neg hv] at hr
  cases hn : slotNames (dictFind s.minimalIndices) (fun m => 2 * (sortedDummies s.minimalIndices).idxOf m) (slotLabels s.tensors s.sqOp) with
  | error e => rw [hn] at hr; simp at hr
  | ok names =>
  rw [hn] at hr
  simp only [] at hr
  cases hbs : bsgsList s.tensors s.sqOp hermitian with
  | error e => rw [hbs] at hr; simp at hr
  | ok v =>
  rw [hbs] at hr
  simp only [] at hr
  split_ifs at hr with hpm
  cases hg : canon (names ++ [names.length, names.length + 1]) (dummyRanges 0 (spaceGroups (sortedDummies s.minimalIndices))) v with
  | none => rw [hg] at hr; simp at hr
  | some gc =>
  rw [hg] at hr
  simp only [] at hr
  cases hop : rebuildOp (sortedDummies s.minimalIndices) s.sqOp gc with
  | error e => rw [hop] at hr; simp at hr
  | ok op' =>
  rw [hop] at hr
  simp only [] at hr
  cases hts : rebuildTensors (sortedDummies s.minimalIndices) s.tensors (gc.drop s.sqOp.size) with
  | error e => rw [hts] at hr; simp at hr
  | ok ts' =>
  rw [hts] at hr
  simp only [] at hr
  obtain ⟨-, -, -, rfl⟩ := Term.make_ok.1 hr
  obtain ⟨rfl, hop2⟩ := rebuildOp_ok hop
  obtain ⟨rfl, hts2⟩ := rebuildTensors_ok hts
  obtain ⟨next, hm, hkeys⟩ := minimalIndices_spec s hset
  have hlen : s.minimalIndices.length = (labelsOf s.tensors s.sqOp).card := by
    have : (s.minimalIndices.map Prod.fst).toFinset = labelsOf s.tensors s.sqOp := by
      ext i; rw [List.mem_toFinset, hkeys]
    rw [← this, List.toFinset_card_of_nodup hm.keys, List.length_map]
  have hD : (sortedDummies s.minimalIndices).Perm (s.minimalIndices.map Prod.snd) := List.perm_insertionSort _ _
  have hin : ∀ i ∈ labelsOf (sortTensors (refillAll s.tensors ((gc.drop s.sqOp.size).map (look (sortedDummies s.minimalIndices)))))
      (s.sqOp.refill (gc.map (look (sortedDummies s.minimalIndices)))), i ∈ s.minimalIndices.map Prod.snd := by
    intro i hi
    rw [labelsOf_perm (sortTensors_perm _), mem_labelsOf, mem_labelList] at hi
    rw [← hD.mem_iff]
    have key : ∀ n, n < 2 * (sortedDummies s.minimalIndices).length → look (sortedDummies s.minimalIndices) n ∈ sortedDummies s.minimalIndices := by
      intro n hn
      rw [look_of_lt (by omega)]
      exact List.getElem_mem _
    rcases hi with hi | ⟨x, hx, hi⟩
    · have := mem_refill hi
      rw [← List.map_take] at this
      obtain ⟨n, hn, rfl⟩ := List.mem_map.1 this
      exact key n (hop2 n hn)
    · have := mem_refillAll_label hx hi
      rw [← List.map_take] at this
      obtain ⟨n, hn, rfl⟩ := List.mem_map.1 this
      exact key n (hts2 n hn)
  refine ⟨?_, fun i hi => ?_⟩
  · refine le_trans ?_ hle
    rw [← hlen, ← List.length_map (f := Prod.snd), ← List.toFinset_card_of_nodup hm.vals]
    exact Finset.card_le_card fun i hi => List.mem_toFinset.2 (hin i hi)
  · exact lt_of_lt_of_le (minimalDict_number hm (hin i hi)) (hlen.le.trans hle)

end Dsrg
