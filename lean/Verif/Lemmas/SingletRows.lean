import Verif.Lemmas.Singlet
import Verif.Lemmas.AmbitEffect
import Verif.Spec.AmbitCode

/-!
The arrangements of the operator labels in the singlet adaptation.
-/

namespace Dsrg

theorem permuteIndices_cre {x : SqOp} {p1 p2 : List (List Index)} {wu wl : List (List Index)} {nu nl : Nat}
    (h1 : x.upper.ambitPermuteFormat p1 = .ok (wu.map fun w => (relSign x.upper.list w, w)))
    (h2 : x.lower.ambitPermuteFormat p2 = .ok (wl.map fun w => (relSign x.lower.list w, w)))
    (hu : SideRows x.upper.list p1 wu nu) (hl : SideRows x.lower.list p2 wl nl) (hnu : x.isEmpty = true → nu = 1) (hnl : x.isEmpty = true → nl = 1) :
    x.permuteIndices p1 p2 true = .ok (wu.flatMap fun w => wl.map fun w' => (relSign x.upper.list w * relSign x.lower.list w', w, w')) := by
  have one : ∀ {l : List Index} {p : List (List Index)} {ws : List (List Index)}, SideRows l p ws 1 → l = [] → ws = [[]] := by
    intro l p ws h hl
    subst hl
    have hc := h.count
    have : ws.length = 1 := by simpa [spinPermutations] using hc
    obtain ⟨w, rfl⟩ := List.length_eq_one_iff.1 this
    rw [(h.perm w (by simp)).eq_nil]
  unfold IndicesPair.permuteIndices
  cases he : x.isEmpty with
  | true =>
    have hl0 : x.upper.list = [] ∧ x.lower.list = [] := by
      simpa [IndicesPair.isEmpty, IndicesPair.size, IndicesPair.nUpper, IndicesPair.nLower, Indices.size] using he
    have e1 := hnu he
    have e2 := hnl he
    subst e1 e2
    rw [one hu hl0.1, one hl hl0.2, hl0.1, hl0.2]
    rfl
  | false =>
    simp only [Bool.false_eq_true, if_false, if_true, h1, h2, bind, Except.bind, pure, Except.pure]
    have : ∀ l : List (List Index), (l.map fun w => (relSign x.upper.list w, w)).mapM (m := Except PyErr)
        (fun r1 => Except.ok ((wl.map fun w => (relSign x.lower.list w, w)).map fun r2 => (r1.1 * r2.1, r1.2, r2.2))) =
          .ok (l.map fun w => wl.map fun w' => (relSign x.upper.list w * relSign x.lower.list w', w, w')) := by
      intro l
      induction l with
      | nil => rfl
      | cons a l ih =>
        rw [List.map_cons, List.mapM_cons, ih]
        simp [bind, Except.bind, pure, Except.pure]
    rw [this, List.flatMap_def]

theorem spinPermutations_one {l : List Index} {b : Bool} (h : ∀ i ∈ l, i.isBeta = b) : spinPermutations l = l.length.factorial := by
  unfold spinPermutations
  cases b with
  | true =>
    rw [List.countP_eq_length.2 (by simpa using h), List.countP_eq_zero.2 (by simpa using h)]; simp
  | false =>
    rw [List.countP_eq_zero.2 (by simpa using h), List.countP_eq_length.2 (by simpa using h)]; simp

section
variable {O R M : Type} [Fintype O] [DecidableEq O] [Inhabited O] [CommRing R] [Algebra ℚ R] [AddCommGroup M] [Module R M]

omit [Fintype O] [DecidableEq O] [Inhabited O] in
theorem singletVal_arrange {Y : Type} [AddCommGroup Y] {F : List O → List O → Y} (hF : PairSymmFn F) {u l u' l' : List Index} (hu : u.Nodup)
    (hl : l.Nodup) (hpu : u'.Perm u) (hpl : l'.Perm l) (ty ty' : IType) (g : Index → O) :
    (relSign u u' * relSign l l') • singletVal F ⟨⟨ty, u'⟩, ⟨ty, l'⟩⟩ g = singletVal F ⟨⟨ty', u⟩, ⟨ty', l⟩⟩ g := by
  unfold singletVal
  have hG : PairSymmFn fun u L : List Index => F (u.map g) (L.map g) := by
    intro pre a b post pre' a' b' post' h
    simp only [List.map_append, List.map_cons]
    exact hF _ _ _ _ _ _ _ _ (by simp [h])
  have k1 := (antisymmFn_signedSum (fun L => if u.map Index.isBeta = L.map Index.isBeta then F (u.map g) (L.map g) else 0)).relSign hl hpl.symm
  have k2 := (antisymmFn_upper Index.isBeta hG ((hpl.nodup_iff).2 hl)).relSign hu hpu.symm
  rw [k1, k2, smul_smul, mul_comm]

end

end Dsrg
