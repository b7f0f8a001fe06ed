import Verif.Lemmas.OpenWindow
import Verif.Props.Connected

/-!
Connected contractions with a limited number of open operators, seen by maps that ignore the other strings.
-/

namespace Dsrg

section
variable {O R A B : Type} [Fintype O] [DecidableEq O] [Inhabited O] [CommRing R] [Algebra ℚ R] [Ring A] [Algebra R A] [AddCommGroup B] [Module R B]

theorem elementary_length {ops : List SqOp} (h : GoodOps ops) {maxCu : Int} : ∀ ts : List Tensor, (∀ t ∈ ts, Elementary ops maxCu t) →
    (ts.flatMap contractionWord).length = 2 * (ts.map fun t => t.upper.size).sum := by
  intro ts hts
  induction ts with
  | nil => rfl
  | cons t ts ih =>
    rw [List.flatMap_cons, List.length_append, ih fun t ht => hts t (List.mem_cons_of_mem _ ht), List.map_cons, List.sum_cons]
    have pt := proper_of_elementary h (hts t List.mem_cons_self)
    rw [contractionWord_eq pt, pt.length_legs]
    have : t.upper.size = t.upper.list.length := rfl
    omega

theorem ignored_value {ops : List SqOp} (hG : GoodOps ops) {maxCu maxOpen minOpen maxOpen' minOpen' : Int} {I : Interp O R A} {f : A →ₗ[R] B}
    (hi : I.Ignores f maxOpen minOpen) {c : List Tensor} (ha : Allowed ops maxCu maxOpen' minOpen' c) {sign : Int} {op : SqOp}
    (hr : IsResult ops c sign op) (hw : ¬ (minOpen ≤ (nOperators ops : Int) - 2 * ((c.map fun t => t.upper.size).sum : Nat) ∧
      (nOperators ops : Int) - 2 * ((c.map fun t => t.upper.size).sum : Nat) ≤ maxOpen)) (orb : Orbitals O) (q : ℚ) (ts : List Tensor) :
    f (I.value orb q ts op) = 0 := by
  have hl := hr.word.length_eq
  rw [length_productWord, List.length_append, elementary_length hG c ha.elementary] at hl
  have hs : (stringWord op).length = op.upper.list.length + op.lower.list.length := by simp [stringWord]
  unfold Interp.value
  rw [map_smul, map_sum, Finset.sum_eq_zero, smul_zero]
  intro σ _
  rw [map_smul, Interp.opval, hi, smul_zero]
  rw [List.length_map, List.length_map]
  omega

/-- Contractions that are added when the limits are widened are not seen by a map that ignores them. -/
theorem IsConnectedContraction.widen {ops : List SqOp} (hG : GoodOps ops) {I : Interp O R A} {orb : Orbitals O} {q : ℚ} {ts : List Tensor}
    {maxCu maxOpen minOpen maxOpen' minOpen' : Int} (h1 : maxOpen ≤ maxOpen') (h2 : minOpen' ≤ minOpen) {V V0 : A}
    (hV : IsConnectedContraction I orb q ts ops maxCu maxOpen minOpen V) (hV0 : IsConnectedContraction I orb q ts ops maxCu maxOpen' minOpen' V0)
    {f : A →ₗ[R] B} (hi : I.Ignores f maxOpen minOpen) :
    ∃ V', IsConnectedContraction I orb q ts ops maxCu maxOpen' minOpen' V' ∧ f V' = f V := by
  classical
  obtain ⟨cs, sign, rest, a1, a2, a3, rfl⟩ := hV
  obtain ⟨cs0, sign0, rest0, b1, b2, b3, -⟩ := hV0
  let w : List Tensor → Prop := fun c => minOpen ≤ (nOperators ops : Int) - 2 * ((c.map fun t => t.upper.size).sum : Nat) ∧
    (nOperators ops : Int) - 2 * ((c.map fun t => t.upper.size).sum : Nat) ≤ maxOpen
  have hw : ∀ {a b : List Tensor}, a.Perm b → (w a ↔ w b) := by
    intro a b hp
    simp only [w, (hp.map fun t => t.upper.size).sum_eq]
  have hin : ∀ c ∈ cs, w c := fun c hc => ((a2 c).1 ⟨c, hc, List.Perm.refl _⟩).1.window
  let extra := cs0.filter fun c => decide (¬ w c)
  have hex : ∀ c ∈ extra, c ∈ cs0 ∧ ¬ w c := fun c hc => ⟨(List.mem_filter.1 hc).1, by simpa using (List.mem_filter.1 hc).2⟩
  let sign' : List Tensor → Int := fun c => if c ∈ cs then sign c else sign0 c
  let rest' : List Tensor → SqOp := fun c => if c ∈ cs then rest c else rest0 c
  have e1 : ∀ c ∈ cs, sign' c = sign c ∧ rest' c = rest c := fun c hc => ⟨if_pos hc, if_pos hc⟩
  have e2 : ∀ c ∈ extra, sign' c = sign0 c ∧ rest' c = rest0 c := fun c hc =>
    ⟨if_neg fun h => (hex c hc).2 (hin c h), if_neg fun h => (hex c hc).2 (hin c h)⟩
  refine ⟨_, ⟨cs ++ extra, sign', rest', ?_, fun us => ?_, ?_, rfl⟩, ?_⟩
  · refine List.pairwise_append.2 ⟨a1, b1.sublist List.filter_sublist, fun a ha b hb hp => ?_⟩
    exact (hex b hb).2 ((hw hp).1 (hin a ha))
  · constructor
    · rintro ⟨c, hc, hp⟩
      rcases List.mem_append.1 hc with hc | hc
      · obtain ⟨k1, k2⟩ := (a2 us).1 ⟨c, hc, hp⟩
        exact ⟨⟨k1.nodup, k1.elementary, k1.share, le_trans h2 k1.window.1, le_trans k1.window.2 h1⟩, k2⟩
      · exact (b2 us).1 ⟨c, (hex c hc).1, hp⟩
    · rintro ⟨k1, k2⟩
      by_cases hu : w us
      · obtain ⟨c, hc, hp⟩ := (a2 us).2 ⟨⟨k1.nodup, k1.elementary, k1.share, hu⟩, k2⟩
        exact ⟨c, List.mem_append_left _ hc, hp⟩
      · obtain ⟨c, hc, hp⟩ := (b2 us).2 ⟨k1, k2⟩
        exact ⟨c, List.mem_append_right _ (List.mem_filter.2 ⟨hc, by simpa using fun h => hu ((hw hp).1 h)⟩), hp⟩
  · intro c hc
    rcases List.mem_append.1 hc with hc | hc
    · rw [(e1 c hc).1, (e1 c hc).2]; exact a3 c hc
    · rw [(e2 c hc).1, (e2 c hc).2]; exact b3 c (hex c hc).1
  · rw [List.map_append, List.sum_append, map_add]
    have z : f (extra.map fun c => I.value orb (sign' c * q) (ts ++ c) (rest' c)).sum = 0 := by
      rw [map_list_sum, List.map_map]
      refine List.sum_eq_zero fun x hx => ?_
      obtain ⟨c, hc, rfl⟩ := List.mem_map.1 hx
      have hc0 := (hex c hc).1
      simp only [Function.comp_apply, (e2 c hc).2]
      exact ignored_value hG hi ((b2 c).1 ⟨c, hc0, List.Perm.refl _⟩).1 (b3 c hc0) (hex c hc).2 orb _ _
    rw [z, add_zero]
    congr 2
    exact List.map_congr_left fun c hc => by rw [(e1 c hc).1, (e1 c hc).2]

theorem factors_proper {singleRef : Bool} {w : List OpName} {terms : List Term} (hb : ∀ x ∈ w, 1 ≤ x.bodies)
    (h1 : List.Forall₂ (IsFactor singleRef) w terms) (orb : Orbitals O) (I : Interp O R A) :
    (∀ t ∈ terms, GoodTerm t) ∧ properOps terms = terms.map Term.sqOp ∧
    terms.map (fun t => I.value orb t.coeff t.tensors t.sqOp) = w.map (I.symbolOperator orb singleRef) := by
  refine ⟨?_, ?_, ?_⟩
  · intro t ht
    obtain ⟨x, -, h⟩ := forall₂_mem_right h1 ht
    exact (isFactor_operator h orb I).1
  · unfold properOps
    rw [List.filter_eq_self]
    intro op hop
    obtain ⟨t, ht, rfl⟩ := List.mem_map.1 hop
    obtain ⟨x, hx, h⟩ := forall₂_mem_right h1 ht
    have e := (isFactor_operator h orb I).2.2.1
    have := hb x hx
    simp only [decide_eq_true_eq]
    exact Or.inl (List.ne_nil_of_length_pos (by omega))
  · clear hb
    induction h1 with
    | nil => rfl
    | cons h _ ih => rw [List.map_cons, ih, List.map_cons, (isFactor_operator h orb I).2.2.2]

theorem IsWordValue.window {I : Interp O R A} {orb : Orbitals O} {singleRef : Bool} {maxCu maxOpen minOpen : Int} {w : List OpName} {V : A}
    (hb : ∀ x ∈ w, 1 ≤ x.bodies) {field : Bool × O → A} (hf : Fermions field) (hno : I.NormalOrdered field) (hI : I.Antisymmetric)
    (hph : I.Physical orb) (hac : I.ActiveCumulants orb) (hcu : I.CumulantsUpTo maxCu) {f : A →ₗ[R] B} (hi : I.Ignores f maxOpen minOpen)
    (h : IsWordValue I orb singleRef maxCu maxOpen minOpen w V) : f V = f (w.map (I.symbolOperator orb singleRef)).prod := by
  obtain ⟨terms, h1, h2, h3⟩ := h
  obtain ⟨hg, hp, hv⟩ := factors_proper hb h1 orb I
  have := IsContraction.window (scale := 1) (terms := terms) (V := V) (by rw [properOps_eq]; exact goodOps_productOps (ordinary_of_good hg h2).ops) h2 hf hno hI
    hph hac hcu hi (by rw [one_mul, hp]; exact h3)
  rw [this, map_one, one_smul, hv]

theorem IsConnectedWordValue.widen {I : Interp O R A} {orb : Orbitals O} {singleRef : Bool} {maxCu maxOpen minOpen maxOpen' minOpen' : Int}
    {w : List OpName} {V : A} (hb : ∀ x ∈ w, 1 ≤ x.bodies) (hph : I.Physical orb) (h1 : maxOpen ≤ maxOpen') (h2 : minOpen' ≤ minOpen)
    (h : IsConnectedWordValue I orb singleRef maxCu maxOpen minOpen w V) {f : A →ₗ[R] B} (hi : I.Ignores f maxOpen minOpen) :
    ∃ V', IsConnectedWordValue I orb singleRef maxCu maxOpen' minOpen' w V' ∧ f V' = f V := by
  obtain ⟨terms, k1, k2, k3⟩ := h
  obtain ⟨hg, hp, -⟩ := factors_proper hb k1 orb I
  have ho := ordinary_of_good hg k2
  obtain ⟨V1, hV1⟩ := contraction_exists ho maxCu maxOpen' minOpen' (terms.map Term.coeff).prod hph
  rw [hp] at hV1
  obtain ⟨V0, hV0⟩ := connectedContraction_exists hV1
  have hG : GoodOps (terms.map Term.sqOp) := by
    rw [← hp, properOps_eq]
    exact goodOps_productOps ho.ops
  obtain ⟨V', hV', e⟩ := k3.widen hG h1 h2 hV0 hi
  exact ⟨V', ⟨terms, k1, k2, hV'⟩, e⟩

theorem nestedWords_generator (I : Interp O R A) (orb : Orbitals O) (singleRef unitary : Bool) (levels : List Nat) (n : Nat) :
    ((nestedWords [OpName.H 1, OpName.H 2] (ampSymbols levels unitary) n).map fun p => p.1 • (p.2.map (I.symbolOperator orb singleRef)).prod).sum =
      nestedCommutator
        (I.hamiltonianPart (Finset.univ.filter fun o => orb.spin o = false) 1 + I.hamiltonianPart (Finset.univ.filter fun o => orb.spin o = false) 2)
        (I.generator orb singleRef unitary levels) n := by
  rw [nestedWords_sum]
  congr 1
  · simp [Interp.symbolOperator]
  · unfold ampSymbols Interp.generator
    cases unitary with
    | false => simp [Interp.symbolOperator, Function.comp_def]
    | true =>
      have : ∀ l : List Nat, (l.map fun k => -I.deexcitation orb singleRef k).sum = -(l.map fun k => I.deexcitation orb singleRef k).sum := by
        intro l
        induction l with
        | nil => simp
        | cons k l ih => simp only [List.map_cons, List.sum_cons, ih]; abel
      simp [Interp.symbolOperator, Function.comp_def, this, sub_eq_add_neg]

end

end Dsrg
