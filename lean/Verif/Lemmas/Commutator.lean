import Verif.Props.Contract
import Verif.Props.HoleDensity
import Mathlib.Tactic.LinearCombination

/-!
Exchanging the two strings of a product: the contractions without pair contraction have the same value.
-/

namespace Dsrg

/-! ### Functions that are antisymmetric without any condition -/

/-- Antisymmetric also on lists with repeats. -/
def StrongAnti {ι M : Type} [Neg M] (F : List ι → M) : Prop :=
  ∀ pre post a b, F (pre ++ b :: a :: post) = - F (pre ++ a :: b :: post)

theorem StrongAnti.weak {ι M : Type} [Neg M] {F : List ι → M} (h : StrongAnti F) : AntisymmFn F := fun pre post a b _ => h pre post a b

theorem strongAnti_sign {ι : Type} [DecidableEq ι] {a : List ι} (hn : a.Nodup) :
    StrongAnti fun b : List ι => if b.Perm a then relSign a b else 0 := by
  intro pre post x y
  by_cases h : (pre ++ x :: y :: post).Nodup
  · exact antisymmFn_relSign a pre post x y h
  · have h1 : ¬ (pre ++ x :: y :: post).Perm a := fun e => h (e.nodup_iff.2 hn)
    have h2 : ¬ (pre ++ y :: x :: post).Perm a := fun e => h1 (((List.Perm.swap y x post).append_left pre).trans e)
    simp [h1, h2]

/-- Rearranging the labels of one cumulant inside a word. -/
theorem StrongAnti.legs {M : Type} [AddCommGroup M] {F : List Leg → M} (hF : StrongAnti F) (pre post : List Leg) {u u' l l' : List Index}
    (hu : u.Perm u') (hl : l.Perm l') (hun : u.Nodup) (hln : l.Nodup) :
    F (pre ++ (creLegs u ++ annLegs l.reverse) ++ post) =
      (relSign u u' * relSign l l') • F (pre ++ (creLegs u' ++ annLegs l'.reverse) ++ post) := by
  have h1 : AntisymmFn fun u => F (pre ++ (creLegs u ++ annLegs l.reverse) ++ post) := by
    intro p q a b _
    have := hF (pre ++ creLegs p) (creLegs q ++ annLegs l.reverse ++ post) (true, a) (true, b)
    simpa [creLegs] using this
  have h2 : AntisymmFn fun l => F (pre ++ (creLegs u' ++ annLegs l.reverse) ++ post) := by
    intro p q a b _
    have := hF (pre ++ creLegs u' ++ annLegs q.reverse) (annLegs p.reverse ++ post) (false, b) (false, a)
    simpa [annLegs] using this
  have e1 := h1.relSign hun hu
  have e2 := h2.relSign hln hl
  rw [e1, e2, smul_smul]

/-! ### The mirrored cumulant -/

/-- The labels of a cumulant of the product `A B`, in the order of the product `B A`. -/
def mirror (A B : SqOp) (t : Tensor) : Tensor :=
  { t with pair := ⟨⟨t.upper.ty, (t.upper.list.filter fun i => decide (i ∈ B.upper.list)) ++ t.upper.list.filter fun i => decide (i ∈ A.upper.list)⟩,
    ⟨t.lower.ty, (t.lower.list.filter fun i => decide (i ∈ B.lower.list)) ++ t.lower.list.filter fun i => decide (i ∈ A.lower.list)⟩⟩ }

/-- A cumulant of two strings: labels of the first string, then of the second. -/
structure TwoPart (A B : SqOp) (n : Nat) (t : Tensor) : Prop where
  ex : ∃ u1 u2 l1 l2, u1.Sublist (A.upper.list.filter fun i => decide (i.space.kind ≠ .c ∧ i.space.kind ≠ .v)) ∧
    u2.Sublist (B.upper.list.filter fun i => decide (i.space.kind ≠ .c ∧ i.space.kind ≠ .v)) ∧
    l1.Sublist (A.lower.list.filter fun i => decide (i.space.kind ≠ .c ∧ i.space.kind ≠ .v)) ∧
    l2.Sublist (B.lower.list.filter fun i => decide (i.space.kind ≠ .c ∧ i.space.kind ≠ .v)) ∧
    u1.length + u2.length = l1.length + l2.length ∧ 2 ≤ u1.length + u2.length ∧ u1.length + u2.length ≤ n ∧
    (u1 ≠ [] ∨ l1 ≠ []) ∧ (u2 ≠ [] ∨ l2 ≠ []) ∧ t = density .cumulant (u1 ++ u2) (l1 ++ l2)

theorem cumulantLegs_two (part : SqOp → List Index) (A B : SqOp) : cumulantLegs part [A, B] =
    ((part A).filter fun i => decide (i.space.kind ≠ .c ∧ i.space.kind ≠ .v)).map (fun i => (0, i)) ++
    ((part B).filter fun i => decide (i.space.kind ≠ .c ∧ i.space.kind ≠ .v)).map (fun i => (1, i)) := by
  simp [cumulantLegs, List.zipIdx]

theorem sublist_two {part : SqOp → List Index} {A B : SqOp} {c : List (Nat × Index)} :
    c.Sublist (cumulantLegs part [A, B]) ↔ ∃ c1 c2 : List Index,
      c1.Sublist ((part A).filter fun i => decide (i.space.kind ≠ .c ∧ i.space.kind ≠ .v)) ∧
      c2.Sublist ((part B).filter fun i => decide (i.space.kind ≠ .c ∧ i.space.kind ≠ .v)) ∧
      c = c1.map (fun i => (0, i)) ++ c2.map (fun i => (1, i)) := by
  rw [cumulantLegs_two, List.sublist_append_iff]
  constructor
  · rintro ⟨a, b, rfl, ha, hb⟩
    rw [List.sublist_map_iff] at ha hb
    obtain ⟨c1, h1, rfl⟩ := ha
    obtain ⟨c2, h2, rfl⟩ := hb
    exact ⟨c1, c2, h1, h2, rfl⟩
  · rintro ⟨c1, c2, h1, h2, rfl⟩
    exact ⟨_, _, rfl, h1.map _, h2.map _⟩

theorem cumulant_two {A B : SqOp} {n : Nat} {t : Tensor} : (∃ key, CumulantContraction [A, B] n key t) ↔ TwoPart A B n t := by
  constructor
  · rintro ⟨key, cre, ann, hc, ha, h1, h2, h3, h4, _, rfl⟩
    obtain ⟨u1, u2, hu1, hu2, rfl⟩ := sublist_two.1 hc
    obtain ⟨l1, l2, hl1, hl2, rfl⟩ := sublist_two.1 ha
    simp only [List.length_append, List.length_map] at h1 h2 h3
    refine ⟨u1, u2, l1, l2, hu1, hu2, hl1, hl2, h1, h2, h3, ?_, ?_, ?_⟩
    · by_contra hcon
      push Not at hcon
      obtain ⟨rfl, rfl⟩ := hcon
      exact h4 ⟨1, by intro x hx; simp at hx; rcases hx with ⟨_, _, rfl⟩ | ⟨_, _, rfl⟩ <;> rfl⟩
    · by_contra hcon
      push Not at hcon
      obtain ⟨rfl, rfl⟩ := hcon
      exact h4 ⟨0, by intro x hx; simp at hx; rcases hx with ⟨_, _, rfl⟩ | ⟨_, _, rfl⟩ <;> rfl⟩
    · simp [List.map_append, List.map_map, Function.comp_def]
  · rintro ⟨u1, u2, l1, l2, hu1, hu2, hl1, hl2, h1, h2, h3, h4, h5, rfl⟩
    refine ⟨_, u1.map (fun i => (0, i)) ++ u2.map (fun i => (1, i)), l1.map (fun i => (0, i)) ++ l2.map (fun i => (1, i)),
      sublist_two.2 ⟨u1, u2, hu1, hu2, rfl⟩, sublist_two.2 ⟨l1, l2, hl1, hl2, rfl⟩, ?_, ?_, ?_, ?_, rfl, ?_⟩
    · simpa using h1
    · simpa using h2
    · simpa using h3
    · rintro ⟨i, hi⟩
      have e0 : i = 0 := by
        rcases h4 with h | h
        · obtain ⟨x, hx⟩ := List.exists_mem_of_ne_nil _ h
          exact (hi (0, x) (by simp [hx])).symm
        · obtain ⟨x, hx⟩ := List.exists_mem_of_ne_nil _ h
          exact (hi (0, x) (by simp [hx])).symm
      have e1 : i = 1 := by
        rcases h5 with h | h
        · obtain ⟨x, hx⟩ := List.exists_mem_of_ne_nil _ h
          exact (hi (1, x) (by simp [hx])).symm
        · obtain ⟨x, hx⟩ := List.exists_mem_of_ne_nil _ h
          exact (hi (1, x) (by simp [hx])).symm
      omega
    · simp [List.map_append, List.map_map, Function.comp_def]

theorem filter_parts {u1 u2 a b : List Index} (h1 : ∀ i ∈ u1, i ∈ a) (h2 : ∀ i ∈ u2, i ∈ b) (hd : a.Disjoint b) :
    (u1 ++ u2).filter (fun i => decide (i ∈ b)) ++ (u1 ++ u2).filter (fun i => decide (i ∈ a)) = u2 ++ u1 := by
  have e1 : u1.filter (fun i => decide (i ∈ b)) = [] := by
    rw [List.filter_eq_nil_iff]; intro i hi hb; exact hd (h1 i hi) (by simpa using hb)
  have e2 : u2.filter (fun i => decide (i ∈ a)) = [] := by
    rw [List.filter_eq_nil_iff]; intro i hi hb; exact hd (by simpa using hb) (h2 i hi)
  have e3 : u1.filter (fun i => decide (i ∈ a)) = u1 := by
    rw [List.filter_eq_self]; intro i hi; simpa using h1 i hi
  have e4 : u2.filter (fun i => decide (i ∈ b)) = u2 := by
    rw [List.filter_eq_self]; intro i hi; simpa using h2 i hi
  rw [List.filter_append, List.filter_append, e1, e2, e3, e4]; simp

theorem GoodOps.disjoint {A B : SqOp} (h : GoodOps [A, B]) : A.upper.list.Disjoint B.upper.list ∧ A.lower.list.Disjoint B.lower.list := by
  have h1 := h.upper
  have h2 := h.lower
  simp only [List.flatMap_cons, List.flatMap_nil, List.append_nil] at h1 h2
  exact ⟨(List.nodup_append'.1 h1).2.2, (List.nodup_append'.1 h2).2.2⟩

theorem GoodOps.symm {A B : SqOp} (h : GoodOps [A, B]) : GoodOps [B, A] := by
  refine ⟨fun op hop => h.so op (by simpa [or_comm] using hop), ?_, ?_⟩
  · have h1 := h.upper
    simp only [List.flatMap_cons, List.flatMap_nil, List.append_nil] at h1 ⊢
    exact List.perm_append_comm.nodup_iff.1 h1
  · have h1 := h.lower
    simp only [List.flatMap_cons, List.flatMap_nil, List.append_nil] at h1 ⊢
    exact List.perm_append_comm.nodup_iff.1 h1

theorem TwoPart.mirror_eq {A B : SqOp} (h : GoodOps [A, B]) {u1 u2 l1 l2 : List Index}
    (hu1 : ∀ i ∈ u1, i ∈ A.upper.list) (hu2 : ∀ i ∈ u2, i ∈ B.upper.list) (hl1 : ∀ i ∈ l1, i ∈ A.lower.list)
    (hl2 : ∀ i ∈ l2, i ∈ B.lower.list) :
    mirror A B (density .cumulant (u1 ++ u2) (l1 ++ l2)) = density .cumulant (u2 ++ u1) (l2 ++ l1) := by
  unfold mirror density
  simp only [Tensor.upper, Tensor.lower]
  rw [filter_parts hu1 hu2 h.disjoint.1, filter_parts hl1 hl2 h.disjoint.2]

theorem sub_of_filter {u a : List Index} {p : Index → Bool} (h : u.Sublist (a.filter p)) : ∀ i ∈ u, i ∈ a :=
  fun i hi => (List.mem_filter.1 (h.subset hi)).1

/-- What mirroring does to a cumulant of two strings. -/
structure Mirrored (A B : SqOp) (t : Tensor) : Prop where
  upper : t.upper.list.Perm (mirror A B t).upper.list
  lower : t.lower.list.Perm (mirror A B t).lower.list
  back : mirror B A (mirror A B t) = t
  cls : t.cls = .cumulant
  cls' : (mirror A B t).cls = .cumulant
  name : (mirror A B t).name = t.name

theorem TwoPart.mirrored {A B : SqOp} (h : GoodOps [A, B]) {n : Nat} {t : Tensor} (ht : TwoPart A B n t) :
    Mirrored A B t ∧ TwoPart B A n (mirror A B t) := by
  obtain ⟨u1, u2, l1, l2, hu1, hu2, hl1, hl2, h1, h2, h3, h4, h5, rfl⟩ := ht.ex
  have hm := TwoPart.mirror_eq h (sub_of_filter hu1) (sub_of_filter hu2) (sub_of_filter hl1) (sub_of_filter hl2)
  have hm' := TwoPart.mirror_eq h.symm (sub_of_filter hu2) (sub_of_filter hu1) (sub_of_filter hl2) (sub_of_filter hl1)
  refine ⟨⟨?_, ?_, ?_, rfl, rfl, rfl⟩, ?_⟩
  · rw [hm]; exact List.perm_append_comm
  · rw [hm]; exact List.perm_append_comm
  · rw [hm, hm']
  · rw [hm]
    exact ⟨u2, u1, l2, l1, hu2, hu1, hl2, hl1, by omega, by omega, by omega, h5, h4, rfl⟩

theorem checkMaxCu_symm (A B : SqOp) (maxCu : Int) : checkMaxCu [B, A] maxCu = checkMaxCu [A, B] maxCu := by
  unfold checkMaxCu nValid
  simp [add_comm]

theorem nOperators_symm (A B : SqOp) : nOperators [B, A] = nOperators [A, B] := by
  simp [nOperators, add_comm]

/-- The contractions without pair contraction are made of cumulants. -/
theorem Allowed.cumulants {A B : SqOp} (h : GoodOps [A, B]) {maxCu maxOpen minOpen : Int} {ts : List Tensor}
    (hA : Allowed [A, B] maxCu maxOpen minOpen ts) (hn : ¬ HasPair ts) :
    ∀ t ∈ ts, TwoPart A B (checkMaxCu [A, B] maxCu).toNat t := by
  intro t ht
  have := ((C32_two_operators [A, B] h rfl maxCu maxOpen minOpen ts hA).2.1 hn) t ht
  exact cumulant_two.1 ⟨_, this⟩

theorem Mirrored.size {A B : SqOp} {t : Tensor} (h : Mirrored A B t) : (mirror A B t).upper.size = t.upper.size := h.upper.length_eq.symm

theorem Allowed.mirror {A B : SqOp} (h : GoodOps [A, B]) {maxCu maxOpen minOpen : Int} {ts : List Tensor}
    (hA : Allowed [A, B] maxCu maxOpen minOpen ts) (hn : ¬ HasPair ts) :
    Allowed [B, A] maxCu maxOpen minOpen (ts.map (mirror A B)) ∧ ¬ HasPair (ts.map (mirror A B)) := by
  have hc := hA.cumulants h hn
  have hm : ∀ t ∈ ts, Mirrored A B t := fun t ht => ((hc t ht).mirrored h).1
  have hsz : ((ts.map (Dsrg.mirror A B)).map fun t => t.upper.size) = ts.map fun t => t.upper.size := by
    rw [List.map_map]
    exact List.map_congr_left fun t ht => (hm t ht).size
  refine ⟨⟨?_, ?_, ?_, ?_⟩, ?_⟩
  · refine List.Nodup.map_on ?_ hA.nodup
    intro x hx y hy e
    rw [← (hm x hx).back, e, (hm y hy).back]
  · intro t' ht'
    obtain ⟨t, ht, rfl⟩ := List.mem_map.1 ht'
    have := ((hc t ht).mirrored h).2
    rw [← checkMaxCu_symm] at this
    obtain ⟨key, hk⟩ := cumulant_two.2 this
    exact ⟨key, Or.inr hk⟩
  · rw [List.pairwise_map]
    refine List.Pairwise.imp_of_mem ?_ hA.share
    intro x y hx hy hs
    have h1 := (hm x hx); have h2 := (hm y hy)
    unfold ShareNothing at hs ⊢
    simp only [← h1.upper.mem_iff, ← h1.lower.mem_iff, ← h2.upper.mem_iff, ← h2.lower.mem_iff] at hs ⊢
    exact hs
  · rw [hsz, nOperators_symm]; exact hA.window
  · rintro ⟨t', ht', h1⟩
    obtain ⟨t, ht, rfl⟩ := List.mem_map.1 ht'
    rw [(hm t ht).size] at h1
    exact hn ⟨t, ht, h1⟩

/-! ### Signs and values -/

theorem openLabels_congr (cre : Bool) {base base' con con' : List Leg} (h1 : ∀ x, x ∈ base ↔ x ∈ base') (h2 : ∀ x, x ∈ con ↔ x ∈ con') :
    openLabels cre base con = openLabels cre base' con' := by
  refine List.Perm.eq_of_pairwise' (sorted_openLabels _ _ _) (sorted_openLabels _ _ _) ?_
  rw [List.perm_ext_iff_of_nodup (nodup_openLabels _ _ _) (nodup_openLabels _ _ _)]
  intro i
  rw [mem_openLabels, mem_openLabels, h1, h2]

theorem baseOrder_two (A B : SqOp) : baseOrder [A, B] = opLegs A ++ opLegs B := by simp [baseOrder]

theorem tensorLegs_cumulant {t : Tensor} (h : t.cls = .cumulant) : tensorLegs t = creLegs t.upper.list ++ annLegs t.lower.list.reverse := by
  unfold tensorLegs; rw [h]; rfl

theorem openOp_mirror {A B : SqOp} {ts : List Tensor} (hm : ∀ t ∈ ts, Mirrored A B t) :
    openOp [B, A] (ts.map (mirror A B)) = openOp [A, B] ts := by
  have hb : ∀ x, x ∈ baseOrder [B, A] ↔ x ∈ baseOrder [A, B] := by
    intro x; rw [baseOrder_two, baseOrder_two, List.mem_append, List.mem_append, or_comm]
  have hc : ∀ x, x ∈ (ts.map (mirror A B)).flatMap tensorLegs ↔ x ∈ ts.flatMap tensorLegs := by
    intro x
    rw [List.flatMap_map, List.mem_flatMap, List.mem_flatMap]
    refine exists_congr fun t => and_congr_right fun ht => ?_
    have h := hm t ht
    rw [tensorLegs_cumulant h.cls, tensorLegs_cumulant h.cls', List.mem_append, List.mem_append, mem_creLegs, mem_creLegs, mem_annLegs,
      mem_annLegs, List.mem_reverse, List.mem_reverse, h.upper.mem_iff, h.lower.mem_iff]
  unfold openOp
  rw [openLabels_congr true hb hc, openLabels_congr false hb hc]

/-- The sign of rearranging the labels of `t`. -/
def mirrorSign (A B : SqOp) (t : Tensor) : Int :=
  relSign t.upper.list (mirror A B t).upper.list * relSign t.lower.list (mirror A B t).lower.list

theorem mirrorSign_sq (A B : SqOp) (t : Tensor) : mirrorSign A B t * mirrorSign A B t = 1 := by
  unfold mirrorSign
  rw [mul_mul_mul_comm, relSign_sq, relSign_sq, one_mul]

theorem StrongAnti.mirror {M : Type} [AddCommGroup M] {F : List Leg → M} (hF : StrongAnti F) {A B : SqOp} {ts : List Tensor}
    (hm : ∀ t ∈ ts, Mirrored A B t) (hn : ∀ t ∈ ts, t.upper.list.Nodup ∧ t.lower.list.Nodup) : ∀ pre post : List Leg,
    F (pre ++ ts.flatMap tensorLegs ++ post) =
      (ts.map (mirrorSign A B)).prod • F (pre ++ (ts.map (Dsrg.mirror A B)).flatMap tensorLegs ++ post) := by
  induction ts with
  | nil => intro pre post; simp
  | cons t ts ih =>
    intro pre post
    have h := hm t (by simp)
    have h1 := hF.legs pre (ts.flatMap tensorLegs ++ post) h.upper h.lower (hn t (by simp)).1 (hn t (by simp)).2
    have h2 := ih (fun t ht => hm t (List.mem_cons_of_mem _ ht)) (fun t ht => hn t (List.mem_cons_of_mem _ ht))
      (pre ++ tensorLegs (Dsrg.mirror A B t)) post
    rw [← tensorLegs_cumulant h.cls, ← tensorLegs_cumulant h.cls'] at h1
    simp only [List.flatMap_cons, List.map_cons, List.prod_cons, List.append_assoc] at h1 h2 ⊢
    rw [h1, h2, smul_smul]; rfl

theorem sign_mirror {A B : SqOp} (h : GoodOps [A, B]) (heven : Even (A.upper.size + A.lower.size) ∨ Even (B.upper.size + B.lower.size))
    {ts : List Tensor} (hps : ProperSet [A, B] ts) (hps' : ProperSet [B, A] (ts.map (mirror A B))) (hm : ∀ t ∈ ts, Mirrored A B t) :
    relSign (baseOrder [A, B]) (arranged [A, B] ts) =
      (ts.map (mirrorSign A B)).prod * relSign (baseOrder [B, A]) (arranged [B, A] (ts.map (mirror A B))) := by
  have hF := strongAnti_sign h.nodup_base
  have h1 := hF.mirror hm (fun t ht => ⟨(hps.proper t ht).upperNodup, (hps.proper t ht).lowerNodup⟩) [] (opLegs (openOp [A, B] ts))
  simp only [List.nil_append] at h1
  have hbb : (baseOrder [A, B]).Perm (baseOrder [B, A]) := by rw [baseOrder_two, baseOrder_two]; exact List.perm_append_comm
  have hp1 := perm_current h hps
  have hp2 := perm_current h.symm hps'
  rw [openOp_mirror hm] at hp2
  have hp3 := hp2.trans hbb.symm
  rw [if_pos hp1, if_pos hp3, smul_eq_mul] at h1
  have h2 := relSign_mul h.nodup_base hbb hp2.symm
  have h3 : relSign (baseOrder [A, B]) (baseOrder [B, A]) = 1 := by
    have := hF.weak.swap_blocks (opLegs A) (opLegs B) [] [] (by simpa [baseOrder_two] using h.nodup_base)
    simp only [List.nil_append, List.append_nil, ← baseOrder_two] at this
    rw [if_pos hbb.symm, if_pos (List.Perm.refl _), relSign_self h.nodup_base] at this
    rw [this, smul_eq_mul, mul_one]
    have e : ∀ op : SqOp, (opLegs op).length = op.upper.size + op.lower.size := by
      intro op; simp [opLegs, creLegs, annLegs, Indices.size]
    have hev : Even ((opLegs A).length * (opLegs B).length) := by
      rw [e, e]; exact Nat.even_mul.2 heven
    exact hev.neg_one_pow
  rw [h3, one_mul] at h2
  unfold arranged
  rw [h1, h2, openOp_mirror hm]

section
variable {O R M : Type} [DecidableEq O] [CommRing R] [AddCommGroup M] [Module R M]

theorem tval_mirror {I : Interp O R M} (hI : I.Antisymmetric) (σ : Index → O) {A B : SqOp} {t : Tensor} (h : Mirrored A B t)
    (hu : t.upper.list.Nodup) (hl : t.lower.list.Nodup) : I.tval σ t = ((mirrorSign A B t : Int) : R) * I.tval σ (mirror A B t) := by
  have h1 : AntisymmFn fun u : List Index => I.tensor t.cls t.name (u.map σ) (t.lower.list.map σ) := by
    intro pre post a b _
    simp only [List.map_append, List.map_cons]
    exact hI.upper _ _ _ _ _ _ _
  have h2 : AntisymmFn fun l : List Index => I.tensor t.cls t.name ((mirror A B t).upper.list.map σ) (l.map σ) := by
    intro pre post a b _
    simp only [List.map_append, List.map_cons]
    exact hI.lower _ _ _ _ _ _ _
  have e1 := h1.relSign hu h.upper
  have e2 := h2.relSign hl h.lower
  unfold Interp.tval
  rw [e1, e2, smul_smul, zsmul_eq_mul]
  rfl

/-- The factor of one contraction in the value of the results: the hole densities may be expanded. -/
def factor (I : Interp O R M) (σ : Index → O) (expand : Bool) (t : Tensor) : R :=
  if expand = true ∧ t.cls = .hole then (t.expandHole.map fun t' => (if decide (t'.cls = .cumulant) then -1 else 1) * I.tval σ t').sum
  else I.tval σ t

theorem sum_expand (I : Interp O R M) (σ : Index → O) (ts : List Tensor) :
    ((expandHoleDensities ts).map fun r => (r.1 : R) * I.pval σ r.2).sum = (ts.map (factor I σ true)).prod := by
  have hsplit : (ts.map (factor I σ true)).prod = I.pval σ (splitHoles ts).1 *
      ((splitHoles ts).2.map fun p => (p.map fun t' => (if decide (t'.cls = .cumulant) then -1 else 1) * I.tval σ t').sum).prod := by
    unfold Interp.pval splitHoles
    simp only [List.map_map]
    induction ts with
    | nil => simp
    | cons t ts ih =>
      rw [List.map_cons, List.prod_cons, ih]
      by_cases h : t.cls = .hole
      · simp only [List.filter_cons, h, factor, decide_true, if_true, ne_eq, not_true, decide_false, Bool.false_eq_true, if_false,
          List.map_cons, List.prod_cons, Function.comp, and_self]
        ring
      · simp only [List.filter_cons, h, factor, decide_true, if_true, ne_eq, not_false_eq_true, decide_false, Bool.false_eq_true, if_false,
          List.map_cons, List.prod_cons, and_false]
        ring
  unfold expandHoleDensities
  simp only
  split
  · rename_i h0
    rw [hsplit, List.length_eq_zero_iff.1 h0]
    have : (splitHoles ts).1 = ts := by
      have h1 : (ts.filter fun t => decide (t.cls = .hole)) = [] := by simpa [splitHoles] using h0
      simp only [splitHoles]
      rw [List.filter_eq_self]
      intro t ht
      have := List.filter_eq_nil_iff.1 h1 t ht
      simpa using this
    simp [this]
  · rw [hsplit, ← sum_pyProduct_signed, List.map_map, ← List.sum_map_mul_left]
    congr 1
    apply List.map_congr_left
    intro e _
    simp only [Function.comp, Interp.pval, List.map_append, List.prod_append]
    ring

/-- The value of the results for one contraction. -/
def contractionValue (I : Interp O R M) (σ : Index → O) (ops : List SqOp) (expand : Bool) (ts : List Tensor) : M :=
  ((relSign (baseOrder ops) (arranged ops ts) : Int) : R) • (ts.map (factor I σ expand)).prod • I.opval σ (openOp ops ts)

theorem rowsValue_append (I : Interp O R M) (σ : Index → O) (a b : List (Int × List Tensor × SqOp)) :
    I.rowsValue σ (a ++ b) = I.rowsValue σ a + I.rowsValue σ b := by simp [Interp.rowsValue]

theorem rowsValue_perm (I : Interp O R M) (σ : Index → O) {a b : List (Int × List Tensor × SqOp)} (h : a.Perm b) :
    I.rowsValue σ a = I.rowsValue σ b := (h.map _).sum_eq

theorem rowsValue_flatMap (I : Interp O R M) (σ : Index → O) {α : Type} (cs : List α) (f : α → List (Int × List Tensor × SqOp)) :
    I.rowsValue σ (cs.flatMap f) = (cs.map fun c => I.rowsValue σ (f c)).sum := by
  induction cs with
  | nil => rfl
  | cons c cs ih => rw [List.flatMap_cons, rowsValue_append, ih]; rfl

theorem rowsValue_resultRows (I : Interp O R M) (σ : Index → O) (ops : List SqOp) (expand : Bool) (ts : List Tensor) :
    I.rowsValue σ (resultRows ops expand ts) = contractionValue I σ ops expand ts := by
  unfold Interp.rowsValue resultRows contractionValue
  rw [List.map_map]
  cases expand with
  | false =>
    have : factor I σ false = I.tval σ := by funext t; simp [factor]
    simp [this, Interp.pval]
  | true =>
    rw [← sum_expand, if_pos rfl, List.sum_smul, List.smul_sum, List.map_map, List.map_map]
    congr 1
    apply List.map_congr_left
    intro r _
    simp only [Function.comp, Int.cast_mul, smul_smul, mul_assoc]

theorem contractionValue_perm (I : Interp O R M) (σ : Index → O) {ops : List SqOp} (h : GoodOps ops) (expand : Bool) {ts ts' : List Tensor}
    (hps : ProperSet ops ts) (hp : ts.Perm ts') : contractionValue I σ ops expand ts' = contractionValue I σ ops expand ts := by
  unfold contractionValue
  rw [sign_congr h hps hp, openOp_congr hp, (hp.map _).prod_eq]

theorem contractionValue_mirror {I : Interp O R M} (hI : I.Antisymmetric) (σ : Index → O) {A B : SqOp} (h : GoodOps [A, B])
    (heven : Even (A.upper.size + A.lower.size) ∨ Even (B.upper.size + B.lower.size)) (expand : Bool) {maxCu maxOpen minOpen : Int}
    {ts : List Tensor} (hA : Allowed [A, B] maxCu maxOpen minOpen ts) (hn : ¬ HasPair ts) :
    contractionValue I σ [B, A] expand (ts.map (mirror A B)) = contractionValue I σ [A, B] expand ts := by
  have hm : ∀ t ∈ ts, Mirrored A B t := fun t ht => ((hA.cumulants h hn t ht).mirrored h).1
  have hps := hA.proper h
  have hps' := (hA.mirror h hn).1.proper h.symm
  have hprod : (ts.map (factor I σ expand)).prod =
      (((ts.map (mirrorSign A B)).prod : Int) : R) * ((ts.map (mirror A B)).map (factor I σ expand)).prod := by
    have hnd : ∀ t ∈ ts, t.upper.list.Nodup ∧ t.lower.list.Nodup := fun t ht => ⟨(hps.proper t ht).upperNodup, (hps.proper t ht).lowerNodup⟩
    clear hps hps' hA hn
    induction ts with
    | nil => simp
    | cons t ts ih =>
      have h1 := hm t (by simp)
      have h2 := hnd t (by simp)
      simp only [List.map_cons, List.prod_cons]
      rw [ih (fun t ht => hm t (List.mem_cons_of_mem _ ht)) fun t ht => hnd t (List.mem_cons_of_mem _ ht)]
      have e1 : factor I σ expand t = I.tval σ t := by simp [factor, h1.cls]
      have e2 : factor I σ expand (mirror A B t) = I.tval σ (mirror A B t) := by simp [factor, h1.cls']
      rw [e1, e2, tval_mirror hI σ h1 h2.1 h2.2]
      push_cast
      ring
  have hsq : (ts.map (mirrorSign A B)).prod * (ts.map (mirrorSign A B)).prod = 1 := by
    clear hprod hps hps' hm hA hn
    induction ts with
    | nil => simp
    | cons t ts ih => rw [List.map_cons, List.prod_cons, mul_mul_mul_comm, ih, mirrorSign_sq, one_mul]
  unfold contractionValue
  rw [sign_mirror h heven hps hps' hm, hprod, openOp_mirror hm, smul_smul, smul_smul]
  congr 1
  rw [Int.cast_mul]
  have hsq' : (((ts.map (mirrorSign A B)).prod : Int) : R) * (((ts.map (mirrorSign A B)).prod : Int) : R) = 1 := by
    rw [← Int.cast_mul, hsq, Int.cast_one]
  linear_combination (-((relSign (baseOrder [B, A]) (arranged [B, A] (ts.map (mirror A B))) : Int) : R) *
    ((ts.map (mirror A B)).map (factor I σ expand)).prod) * hsq'

end

/-- Two lists of contractions, each contraction once, with the same contractions up to order. -/
theorem sum_classes {M : Type} [AddCommMonoid M] {cs cs' : List (List Tensor)} (h1 : cs.Pairwise fun a b => ¬ a.Perm b)
    (h2 : cs'.Pairwise fun a b => ¬ a.Perm b) (h : ∀ ts, (∃ c ∈ cs, c.Perm ts) ↔ ∃ c ∈ cs', c.Perm ts) (W : List Tensor → M)
    (hW : ∀ a ∈ cs, ∀ b, a.Perm b → W a = W b) : (cs.map W).sum = (cs'.map W).sum := by
  have hp : (cs.map (Multiset.ofList (α := Tensor))).Perm (cs'.map (Multiset.ofList (α := Tensor))) := by
    have n1 : ∀ {cs : List (List Tensor)}, (cs.Pairwise fun a b => ¬ a.Perm b) → (cs.map (Multiset.ofList (α := Tensor))).Nodup := by
      intro cs h
      rw [List.nodup_iff_pairwise_ne, List.pairwise_map]
      exact h.imp fun h e => h (Multiset.coe_eq_coe.1 e)
    rw [List.perm_ext_iff_of_nodup (n1 h1) (n1 h2)]
    intro m
    obtain ⟨ts, rfl⟩ : ∃ ts, m = Multiset.ofList ts := ⟨m.toList, (Multiset.coe_toList m).symm⟩
    rw [List.mem_map, List.mem_map]
    constructor
    · rintro ⟨c, hc, e⟩
      obtain ⟨c', hc', e'⟩ := (h ts).1 ⟨c, hc, Multiset.coe_eq_coe.1 e⟩
      exact ⟨c', hc', Multiset.coe_eq_coe.2 e'⟩
    · rintro ⟨c, hc, e⟩
      obtain ⟨c', hc', e'⟩ := (h ts).2 ⟨c, hc, Multiset.coe_eq_coe.1 e⟩
      exact ⟨c', hc', Multiset.coe_eq_coe.2 e'⟩
  have hW' : ∀ c ∈ cs, W c = W (Multiset.ofList c).toList := fun c hc => hW c hc _ (Multiset.coe_eq_coe.1 (by simp))
  have hW'' : ∀ c ∈ cs', W c = W (Multiset.ofList c).toList := by
    intro c hc
    obtain ⟨c', hc', e⟩ := (h c).2 ⟨c, hc, List.Perm.refl _⟩
    rw [← hW c' hc' c e, hW c' hc' _ (e.trans (Multiset.coe_eq_coe.1 (Multiset.coe_toList _).symm))]
  have e1 : cs.map W = (cs.map (Multiset.ofList (α := Tensor))).map fun m => W m.toList := by
    rw [List.map_map]; exact List.map_congr_left hW'
  have e2 : cs'.map W = (cs'.map (Multiset.ofList (α := Tensor))).map fun m => W m.toList := by
    rw [List.map_map]; exact List.map_congr_left hW''
  rw [e1, e2]
  exact (hp.map _).sum_eq

end Dsrg
