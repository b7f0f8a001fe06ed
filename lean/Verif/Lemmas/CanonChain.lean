import Verif.Lemmas.CanonLeads
import Verif.Spec.CanonicalForm
import Verif.Lemmas.TermMake
import Verif.Lemmas.Order

/-!
Changes of notation lead from the names of one product to the names of the other.
-/

namespace Dsrg

/-- The part of the sorting key that does not depend on the labels. -/
def Tensor.kindKey (x : Tensor) : Int × PyStr × Nat := (x.priority, x.name, x.pair.size)

theorem form_size {x y : Tensor} (h : x.form = y.form) : x.pair.size = y.pair.size := by
  simp only [Tensor.form, Prod.mk.injEq] at h
  exact congrArg₂ (· + ·) h.2.2.2.2.1 h.2.2.2.2.2

theorem block_length (x : Tensor) : (x.lower.list ++ x.upper.list).length = x.pair.size := by
  rw [List.length_append, Nat.add_comm]; rfl

theorem slotLabels_append (A B : List Tensor) (op : SqOp) : slotLabels (A ++ B) op = slotLabels A op ++ B.flatMap fun t => t.lower.list ++ t.upper.list := by
  unfold slotLabels
  rw [List.flatMap_append, ← List.append_assoc]

/-- The forms of a product: all antisymmetric of one type, as many upper as lower labels, and equal forms next to each other. -/
structure GoodForms (ty : IType) (Φ : List (TCls × PyStr × Int × IType × Nat × Nat)) : Prop where
  anti : ty.isAntisym = true
  type : ∀ φ ∈ Φ, φ.2.2.2.1 = ty
  bal : ∀ φ ∈ Φ, φ.2.2.2.2.1 = φ.2.2.2.2.2
  runs : ∀ A B C φ, Φ = A ++ φ :: B ++ φ :: C → ∀ ψ ∈ B, ψ = φ

theorem GoodForms.tail {ty : IType} {φ : TCls × PyStr × Int × IType × Nat × Nat} {Φ : List (TCls × PyStr × Int × IType × Nat × Nat)}
    (h : GoodForms ty (φ :: Φ)) : GoodForms ty Φ :=
  ⟨h.anti, fun ψ hψ => h.type ψ (by simp [hψ]), fun ψ hψ => h.bal ψ (by simp [hψ]), fun A B C ψ e => h.runs (φ :: A) B C ψ (by simp [e])⟩

section
variable {D : List Index} {dummies : List (Nat × Nat)} {v : List SlotGroup} {hermitian : Bool}

/-- Two neighbouring factors of one form. -/
theorem leads_adjacent {P Q : List Tensor} {a b : Tensor} {op : SqOp} {ty : IType} (hv : bsgsList (P ++ a :: b :: Q) op hermitian = .ok v)
    (hty : ∀ y ∈ P ++ a :: b :: Q, y.upper.ty = ty) (hab : a.form = b.form) :
    Leads D dummies v (slotLabels (P ++ a :: b :: Q) op) (slotLabels (P ++ b :: a :: Q) op) false := by
  obtain ⟨e, k, hat, hs, -, hk⟩ := tensor_at hv (fun y hy => by rw [hty y hy, hty a (by simp)])
  have hsz : b.pair.size = a.pair.size := (form_size hab).symm
  simp only [Tensor.form, Prod.mk.injEq] at hab
  have hl := hk b Q rfl hab.2.1 hab.2.2.2.2.2
  have e1 : ∀ a b : Tensor, slotLabels (P ++ a :: b :: Q) op = slotLabels P op ++ (a.lower.list ++ a.upper.list) ++ (b.lower.list ++ b.upper.list) ++
      Q.flatMap fun t => t.lower.list ++ t.upper.list := by
    intro a b; rw [slotLabels_append]; simp only [List.flatMap_cons, List.append_assoc]
  rw [e1 a b, e1 b a]
  refine leads_exchange (e := e) (k := k) (by rw [slotLabels_length]; exact hat) hl ?_ ?_
  · rw [hs, block_length]
  · rw [hs, block_length, hsz]

/-- A factor is moved to the front of factors of its form. -/
theorem leads_front {op : SqOp} {ty : IType} {x : Tensor} : ∀ (A P B : List Tensor), (∀ y ∈ A, y.form = x.form) →
    bsgsList (P ++ A ++ x :: B) op hermitian = .ok v → (∀ y ∈ P ++ A ++ x :: B, y.upper.ty = ty) →
    Leads D dummies v (slotLabels (P ++ A ++ x :: B) op) (slotLabels (P ++ x :: A ++ B) op) false := by
  intro A
  induction A with
  | nil => intro P B _ hv hty; simpa using Leads.refl D dummies v _
  | cons a A ih =>
    intro P B hA hv hty
    have e1 : P ++ a :: A ++ x :: B = (P ++ [a]) ++ A ++ x :: B := by simp
    rw [e1] at hv hty ⊢
    have h1 := ih (P ++ [a]) B (fun y hy => hA y (by simp [hy])) hv hty
    have hv2 : bsgsList (P ++ a :: x :: (A ++ B)) op hermitian = .ok v := by
      rw [← hv]
      refine bsgsList_congr ?_ rfl hermitian
      have hax := hA a (by simp)
      have hm : ∀ l : List Tensor, (∀ y ∈ l, y.form = x.form) → x.form :: l.map Tensor.form = l.map Tensor.form ++ [x.form] := by
        intro l
        induction l with
        | nil => intro _; rfl
        | cons y l ih => intro h; rw [List.map_cons, h y (by simp), List.cons_append, ← ih fun z hz => h z (by simp [hz])]
      simp only [List.map_append, List.map_cons, List.append_assoc, List.cons_append, List.nil_append, List.map_nil]
      have := hm A fun y hy => hA y (by simp [hy])
      rw [show x.form :: (A.map Tensor.form ++ B.map Tensor.form) = (x.form :: A.map Tensor.form) ++ B.map Tensor.form by simp, this]
      simp
    have hty2 : ∀ y ∈ P ++ a :: x :: (A ++ B), y.upper.ty = ty := by
      intro y hy
      refine hty y ?_
      simp only [List.mem_append, List.mem_cons, List.mem_nil_iff] at hy ⊢
      tauto
    have h2 := leads_adjacent (D := D) (dummies := dummies) hv2 hty2 (hA a (by simp))
    have e2 : P ++ [a] ++ x :: A ++ B = P ++ a :: x :: (A ++ B) := by simp
    have e3 : P ++ x :: a :: A ++ B = P ++ x :: a :: (A ++ B) := by simp
    rw [e2] at h1
    rw [e3]
    exact h1.trans h2

/-- Two orders of the same factors with the same sequence of forms. -/
theorem leads_reorder {op : SqOp} {ty : IType} : ∀ (R P R' : List Tensor), GoodForms ty ((P ++ R).map Tensor.form) → R.Perm R' →
    R.map Tensor.form = R'.map Tensor.form → bsgsList (P ++ R) op hermitian = .ok v →
    Leads D dummies v (slotLabels (P ++ R') op) (slotLabels (P ++ R) op) false := by
  intro R
  induction R with
  | nil =>
    intro P R' _ hp _ _
    rw [hp.nil_eq]
    exact Leads.refl _ _ _ _
  | cons x R ih =>
    intro P R' hΦ hp hf hv
    have hx : x ∈ R' := hp.mem_iff.1 (by simp)
    obtain ⟨A, B, rfl⟩ := List.append_of_mem hx
    have hA : ∀ y ∈ A, y.form = x.form := by
      cases A with
      | nil => simp
      | cons a A =>
        simp only [List.map_cons, List.cons_append, List.map_append, List.cons.injEq] at hf
        intro y hy
        rcases List.mem_cons.1 hy with rfl | hy
        · exact hf.1.symm
        · refine hΦ.runs (P.map Tensor.form) (A.map Tensor.form) (B.map Tensor.form) x.form ?_ _ (List.mem_map_of_mem hy)
          rw [List.map_append, List.map_cons, hf.2]; simp
    have hRA : R.Perm (A ++ B) := (List.perm_middle.symm.trans hp.symm).symm.cons_inv
    have hfx : ∀ l : List Tensor, (∀ y ∈ l, y.form = x.form) → x.form :: l.map Tensor.form = l.map Tensor.form ++ [x.form] := by
      intro l
      induction l with
      | nil => intro _; rfl
      | cons y l ih => intro h; rw [List.map_cons, h y (by simp), List.cons_append, ← ih fun z hz => h z (by simp [hz])]
    have hfR : R.map Tensor.form = (A ++ B).map Tensor.form := by
      have : x.form :: R.map Tensor.form = x.form :: (A ++ B).map Tensor.form := by
        rw [← List.map_cons, hf, List.map_append, List.map_cons, List.map_append]
        rw [show x.form :: (A.map Tensor.form ++ B.map Tensor.form) = (x.form :: A.map Tensor.form) ++ B.map Tensor.form by simp, hfx A hA]
        simp
      simpa using this
    have hvA : bsgsList (P ++ A ++ x :: B) op hermitian = .ok v := by
      rw [← hv]
      refine bsgsList_congr ?_ rfl hermitian
      rw [List.append_assoc, List.map_append, ← hf, List.map_append]
    have hty : ∀ y ∈ P ++ A ++ x :: B, y.upper.ty = ty := by
      intro y hy
      have hm : y ∈ P ++ x :: R := by
        rw [List.append_assoc] at hy
        rcases List.mem_append.1 hy with h | h
        · exact List.mem_append_left _ h
        · exact List.mem_append_right _ (hp.mem_iff.2 h)
      exact hΦ.type _ (List.mem_map_of_mem (f := Tensor.form) hm)
    have h1 := leads_front (D := D) (dummies := dummies) A P B hA hvA hty
    have h2 := ih (P ++ [x]) (A ++ B) (by simpa using hΦ) hRA hfR (by simpa using hv)
    have e1 : P ++ [x] ++ (A ++ B) = P ++ x :: A ++ B := by simp
    have e2 : P ++ [x] ++ R = P ++ x :: R := by simp
    rw [e1, e2] at h2
    rw [← List.append_assoc]
    exact h1.trans h2

/-! ### One change of notation -/

theorem leads_tensor {P Q : List Tensor} {x x' : Tensor} {op : SqOp} {flip : Bool}
    (h : Leads D dummies v (slotLabels P op ++ (x.lower.list ++ x.upper.list) ++ Q.flatMap fun t => t.lower.list ++ t.upper.list)
      (slotLabels P op ++ (x'.lower.list ++ x'.upper.list) ++ Q.flatMap fun t => t.lower.list ++ t.upper.list) flip) :
    Leads D dummies v (slotLabels (P ++ x :: Q) op) (slotLabels (P ++ x' :: Q) op) flip := by
  rw [slotLabels_append, slotLabels_append]
  simp only [List.flatMap_cons, ← List.append_assoc] at h ⊢
  exact h

/-- The labels of the factors, in one order of the factors that has the given forms, are led to. -/
def LedTo (D : List Index) (dummies : List (Nat × Nat)) (v : List SlotGroup) (L : List Index) (Φ : List (TCls × PyStr × Int × IType × Nat × Nat))
    (ts : List Tensor) (op : SqOp) (flip : Bool) : Prop :=
  ∀ T, T.Perm ts → T.map Tensor.form = Φ → Leads D dummies v L (slotLabels T op) flip

theorem form_withLabels {x : Tensor} {u l : List Index} (hu : u.length = x.upper.list.length) (hl : l.length = x.lower.list.length) :
    (x.withLabels u l).form = x.form := by
  simp only [Tensor.form, Tensor.withLabels, Tensor.upper, Tensor.lower, hu, hl]

theorem LedTo.tensor {L : List Index} {Φ : List (TCls × PyStr × Int × IType × Nat × Nat)} {ts₁ ts₂ : List Tensor} {x x' : Tensor} {op : SqOp}
    {flip b : Bool} (h : LedTo D dummies v L Φ (ts₁ ++ x :: ts₂) op flip) (hf : x'.form = x.form)
    (hx : ∀ P Q, (P ++ x :: Q).map Tensor.form = Φ → Leads D dummies v (slotLabels (P ++ x :: Q) op) (slotLabels (P ++ x' :: Q) op) b) :
    LedTo D dummies v L Φ (ts₁ ++ x' :: ts₂) op (flip ^^ b) := by
  intro T hT hTf
  have hm : x' ∈ T := hT.mem_iff.2 (by simp)
  obtain ⟨P, Q, rfl⟩ := List.append_of_mem hm
  have hp : (P ++ Q).Perm (ts₁ ++ ts₂) := (List.perm_middle.symm.trans (hT.trans List.perm_middle)).cons_inv
  have hT' : (P ++ x :: Q).Perm (ts₁ ++ x :: ts₂) := List.perm_middle.trans ((hp.cons x).trans List.perm_middle.symm)
  have hTf' : (P ++ x :: Q).map Tensor.form = Φ := by
    rw [← hTf, List.map_append, List.map_append, List.map_cons, List.map_cons, hf]
  exact (h _ hT' hTf').trans (hx P Q hTf')

theorem perm_map_exists {α β : Type} {f : α → β} {l : List α} {T : List β} (h : T.Perm (l.map f)) : ∃ T₀ : List α, T₀.Perm l ∧ T = T₀.map f := by
  have : (fun (a : List β) (b : List α) => a.Perm (b.map f)) T l := h
  rw [← List.eq_map_comp_perm] at this
  obtain ⟨T₀, h1, h2⟩ := this
  exact ⟨T₀, h2, h1⟩

theorem mem_slotLabels_of_perm {T ts : List Tensor} {op : SqOp} (h : T.Perm ts) {i : Index} : i ∈ slotLabels T op ↔ i ∈ labelsOf ts op := by
  rw [← labelsOf_perm h, mem_labelsOf, (slotLabels_perm _ _).mem_iff]

/-- What a change of notation keeps. -/
theorem Rewrites.forms {c c' : ℚ} {ts ts' : List Tensor} {op op' : SqOp} (h : Rewrites hermitian c ts op c' ts' op')
    (hbal : ∀ x ∈ ts, x.upper.list.length = x.lower.list.length) :
    (ts'.map Tensor.form).Perm (ts.map Tensor.form) ∧ SqOp.form op' = SqOp.form op ∧ |c'| = |c| := by
  have key : ∀ (ts₁ ts₂ : List Tensor) (x x' : Tensor), x'.form = x.form →
      ((ts₁ ++ x' :: ts₂).map Tensor.form).Perm ((ts₁ ++ x :: ts₂).map Tensor.form) := by
    intro ts₁ ts₂ x x' e
    rw [List.map_append, List.map_append, List.map_cons, List.map_cons, e]
  cases h with
  | rename _ _ f h1 h2 =>
    refine ⟨?_, by simp [SqOp.form, SqOp.withLabels], rfl⟩
    rw [List.map_map]
    refine List.Perm.of_eq (List.map_congr_left fun x _ => ?_)
    exact form_withLabels (by simp) (by simp)
  | reorder _ _ _ h => exact ⟨h.symm.map _, rfl, rfl⟩
  | upper ts₁ ts₂ x _ l₁ l₂ i j e => exact ⟨key _ _ _ _ (form_withLabels (by simp [e]) rfl), rfl, abs_neg _⟩
  | lower ts₁ ts₂ x _ l₁ l₂ i j e => exact ⟨key _ _ _ _ (form_withLabels rfl (by simp [e])), rfl, abs_neg _⟩
  | adjoint ts₁ ts₂ x _ e => 
    have := hbal x (by simp)
    exact ⟨key _ _ _ _ (form_withLabels this.symm this), rfl, rfl⟩
  | opUpper _ _ l₁ l₂ i j e => exact ⟨.refl _, by simp [SqOp.form, SqOp.withLabels, e], abs_neg _⟩
  | opLower _ _ l₁ l₂ i j e => exact ⟨.refl _, by simp [SqOp.form, SqOp.withLabels, e], abs_neg _⟩

theorem balanced_of_forms {ts ts' : List Tensor} (h : (ts'.map Tensor.form).Perm (ts.map Tensor.form))
    (hbal : ∀ x ∈ ts, x.upper.list.length = x.lower.list.length) : ∀ x ∈ ts', x.upper.list.length = x.lower.list.length := by
  intro x hx
  obtain ⟨y, hy, e⟩ := List.mem_map.1 (h.mem_iff.1 (List.mem_map_of_mem hx))
  simp only [Tensor.form, Prod.mk.injEq] at e
  rw [← e.2.2.2.2.1, ← e.2.2.2.2.2]; exact hbal y hy

theorem SameUpToNotation.forms {c c' : ℚ} {ts ts' : List Tensor} {op op' : SqOp} (h : SameUpToNotation hermitian c ts op c' ts' op')
    (hbal : ∀ x ∈ ts, x.upper.list.length = x.lower.list.length) :
    (ts'.map Tensor.form).Perm (ts.map Tensor.form) ∧ SqOp.form op' = SqOp.form op ∧ |c'| = |c| := by
  have key : ∀ a b : ℚ × List Tensor × SqOp,
      Relation.ReflTransGen (fun a b : ℚ × List Tensor × SqOp => Rewrites hermitian a.1 a.2.1 a.2.2 b.1 b.2.1 b.2.2) a b →
      (∀ x ∈ a.2.1, x.upper.list.length = x.lower.list.length) →
      (b.2.1.map Tensor.form).Perm (a.2.1.map Tensor.form) ∧ SqOp.form b.2.2 = SqOp.form a.2.2 ∧ |b.1| = |a.1| := by
    intro a b hab hb
    induction hab with
    | refl => exact ⟨.refl _, rfl, rfl⟩
    | tail _ h ih =>
      obtain ⟨h1, h2, h3⟩ := ih
      obtain ⟨k1, k2, k3⟩ := h.forms (balanced_of_forms h1 hb)
      exact ⟨k1.trans h1, k2.trans h2, k3.trans h3⟩
  exact key _ _ h hbal

theorem LedTo.rewrites {L : List Index} {Φ : List (TCls × PyStr × Int × IType × Nat × Nat)} {ty : IType} (hΦ : GoodForms ty Φ)
    {c c' : ℚ} {ts ts' : List Tensor} {op op' : SqOp} (hv : ∀ T, T.map Tensor.form = Φ → bsgsList T op hermitian = .ok v)
    (hopty : op.upper.ty = ty) (hopbal : op.upper.list.length = op.lower.list.length)
    {flip : Bool} (h : LedTo D dummies v L Φ ts op flip) (hr : Rewrites hermitian c ts op c' ts' op') (hperm : (ts.map Tensor.form).Perm Φ) :
    ∃ b : Bool, c' = (if b then -c else c) ∧ LedTo D dummies v L Φ ts' op' (flip ^^ b) := by
  have entry : ∀ P Q (x : Tensor), (P ++ x :: Q).map Tensor.form = Φ → ∃ (e : SlotGroup) (k : Nat), e.At v k (slotLabels P op).length ∧
      e.size = x.upper.list.length + x.upper.list.length ∧ e.gens = asymGens x.upper.list.length x.upper.list.length hermitian ∧
      x.lower.list.length = x.upper.list.length := by
    intro P Q x hf
    have ht : ∀ y ∈ P ++ x :: Q, y.upper.ty = ty := fun y hy => hΦ.type _ (hf ▸ List.mem_map_of_mem (f := Tensor.form) hy)
    obtain ⟨e, k, hat, hs, hg, -⟩ := tensor_at (hv _ hf) (fun y hy => by rw [ht y hy, ht x (by simp)])
    have hb : x.upper.list.length = x.lower.list.length := hΦ.bal x.form (hf ▸ List.mem_map_of_mem (f := Tensor.form) (by simp))
    refine ⟨e, k, by rw [slotLabels_length]; exact hat, ?_, ?_, hb.symm⟩
    · rw [hs, ← block_length, List.length_append]; omega
    · have := bsgs_asym (by show x.upper.ty.isAntisym = true; rw [ht x (by simp)]; exact hΦ.anti) hg
      rw [this]
      show asymGens x.upper.list.length x.lower.list.length hermitian = _
      rw [hb]
  have opentry : ∀ T : List Tensor, T.map Tensor.form = Φ → op.upper.list.length ≠ 0 → ∃ e : SlotGroup, e.At v 0 0 ∧
      e.size = op.upper.list.length + op.upper.list.length ∧ e.gens = asymGens op.upper.list.length op.upper.list.length false := by
    intro T (hf : T.map Tensor.form = Φ) h0
    have hsz : op.size = op.upper.list.length + op.upper.list.length := by
      show op.upper.list.length + op.lower.list.length = _; omega
    obtain ⟨e, hat, hs, hg⟩ := op_at (hv T hf) (by omega)
    have ha : op.upper.ty.isAntisym = true := by rw [hopty]; exact hΦ.anti
    unfold IndicesPair.opBsgs at hg
    rw [if_pos ha] at hg
    refine ⟨e, hat, by omega, ?_⟩
    rw [bsgs_asym ha hg]
    show asymGens op.upper.list.length op.lower.list.length false = _
    rw [hopbal]
  cases hr with
  | rename _ _ f h1 h2 =>
    refine ⟨false, by simp, ?_⟩
    intro T hT hTf
    obtain ⟨T₀, hT₀, rfl⟩ := perm_map_exists hT
    have hf₀ : T₀.map Tensor.form = Φ := by
      rw [← hTf, List.map_map]
      exact List.map_congr_left fun x _ => (form_withLabels (by simp) (by simp)).symm
    have hm : slotLabels (T₀.map fun x => x.withLabels (x.upper.list.map f) (x.lower.list.map f))
        (SqOp.withLabels op (op.upper.list.map f) (op.lower.list.map f)) = (slotLabels T₀ op).map f := by
      unfold slotLabels
      rw [List.map_append, List.map_append, List.map_flatMap, List.flatMap_map]
      congr 1
      refine congrArg (fun g => T₀.flatMap g) ?_
      funext x
      simp [Tensor.withLabels, Tensor.upper, Tensor.lower]
    rw [hm]
    exact (h T₀ hT₀ hf₀).trans (Leads.rename (fun i hi j hj => h1 i ((mem_slotLabels_of_perm hT₀).1 hi) j ((mem_slotLabels_of_perm hT₀).1 hj))
      fun i hi => h2 i ((mem_slotLabels_of_perm hT₀).1 hi))
  | reorder _ _ _ hp =>
    refine ⟨false, by simp, ?_⟩
    intro T hT hTf
    simpa using h T (hT.trans hp.symm) hTf
  | upper ts₁ ts₂ x _ l₁ l₂ i j e =>
    refine ⟨true, by simp, h.tensor (form_withLabels (by simp [e]) rfl) fun P Q hf => leads_tensor ?_⟩
    obtain ⟨en, k, hat, hs, hg, hb⟩ := entry P Q x hf
    have := leads_upper (D := D) (dummies := dummies) (B := Q.flatMap fun t => t.lower.list ++ t.upper.list) (l₁ := l₁) (l₂ := l₂) (i := i) (j := j)
      hat hs hg hb (by rw [e])
    rw [e]
    exact this
  | lower ts₁ ts₂ x _ l₁ l₂ i j e =>
    refine ⟨true, by simp, h.tensor (form_withLabels rfl (by simp [e])) fun P Q hf => leads_tensor ?_⟩
    obtain ⟨en, k, hat, hs, hg, hb⟩ := entry P Q x hf
    have := leads_lower (D := D) (dummies := dummies) (B := Q.flatMap fun t => t.lower.list ++ t.upper.list) (l₁ := l₁) (l₂ := l₂) (i := i) (j := j)
      hat hs hg rfl (by rw [← hb, e])
    rw [e]
    exact this
  | adjoint ts₁ ts₂ x _ e =>
    have hbx : x.upper.list.length = x.lower.list.length :=
      hΦ.bal x.form (hperm.mem_iff.1 (List.mem_map_of_mem (f := Tensor.form) (by simp)))
    refine ⟨false, by simp, h.tensor (form_withLabels hbx.symm hbx) fun P Q hf => leads_tensor ?_⟩
    obtain ⟨en, k, hat, hs, hg, hb⟩ := entry P Q x hf
    subst e
    exact leads_halves hat hs hg hb rfl
  | opUpper _ _ l₁ l₂ i j e =>
    refine ⟨true, by simp, ?_⟩
    intro T hT hTf
    refine (h T hT hTf).trans ?_
    obtain ⟨en, hat, hs, hg⟩ := opentry T hTf (by rw [e]; simp)
    have := leads_upper (D := D) (dummies := dummies) (A := []) (B := T.flatMap fun t => t.lower.list ++ t.upper.list) (l₁ := l₁) (l₂ := l₂) (i := i)
      (j := j) hat hs hg hopbal.symm (by rw [e])
    unfold slotLabels
    rw [e]
    exact this
  | opLower _ _ l₁ l₂ i j e =>
    refine ⟨true, by simp, ?_⟩
    intro T hT hTf
    refine (h T hT hTf).trans ?_
    obtain ⟨en, hat, hs, hg⟩ := opentry T hTf (by rw [hopbal, e]; simp)
    have := leads_lower (D := D) (dummies := dummies) (A := []) (B := T.flatMap fun t => t.lower.list ++ t.upper.list) (l₁ := l₁) (l₂ := l₂) (i := i)
      (j := j) hat hs hg rfl (by rw [hopbal, e])
    unfold slotLabels
    rw [e]
    exact this

/-- Changes of notation lead to the labels of the other product. -/
theorem SameUpToNotation.ledTo {ty : IType} {c c' : ℚ} {ts ts' : List Tensor} {op op' : SqOp} (h : SameUpToNotation hermitian c ts op c' ts' op')
    (hΦ : GoodForms ty (ts.map Tensor.form)) (hv : bsgsList ts op hermitian = .ok v)
    (hopty : op.upper.ty = ty) (hopbal : op.upper.list.length = op.lower.list.length) :
    ∃ flip : Bool, c' = (if flip then -c else c) ∧ LedTo D dummies v (slotLabels ts op) (ts.map Tensor.form) ts' op' flip := by
  have hbal : ∀ x ∈ ts, x.upper.list.length = x.lower.list.length := fun x hx => hΦ.bal x.form (List.mem_map_of_mem hx)
  have key : ∀ b : ℚ × List Tensor × SqOp,
      Relation.ReflTransGen (fun a b : ℚ × List Tensor × SqOp => Rewrites hermitian a.1 a.2.1 a.2.2 b.1 b.2.1 b.2.2) (c, ts, op) b →
      ((b.2.1.map Tensor.form).Perm (ts.map Tensor.form) ∧ SqOp.form b.2.2 = SqOp.form op) ∧
      ∃ flip : Bool, b.1 = (if flip then -c else c) ∧ LedTo D dummies v (slotLabels ts op) (ts.map Tensor.form) b.2.1 b.2.2 flip := by
    intro b hab
    induction hab with
    | refl =>
      refine ⟨⟨.refl _, rfl⟩, false, rfl, ?_⟩
      intro T hT hTf
      have hvT : bsgsList T op hermitian = .ok v := by rw [← hv]; exact bsgsList_congr hTf rfl hermitian
      simpa using leads_reorder (D := D) (dummies := dummies) (op := op) (ty := ty) T [] ts (by simpa [hTf] using hΦ) hT hTf (by simpa using hvT)
    | @tail b d _ hs ih =>
      obtain ⟨⟨h1, h2⟩, flip, h3, h4⟩ := ih
      obtain ⟨k1, k2, -⟩ := hs.forms (balanced_of_forms h1 hbal)
      refine ⟨⟨k1.trans h1, k2.trans h2⟩, ?_⟩
      have h2' := h2
      simp only [SqOp.form, Prod.mk.injEq] at h2'
      obtain ⟨q, e1, e2⟩ := h4.rewrites hΦ (fun T hT => by rw [← hv]; exact bsgsList_congr hT h2 hermitian) (by rw [h2'.1, hopty])
        (by rw [h2'.2.2.1, h2'.2.2.2, hopbal]) hs h1
      refine ⟨flip ^^ q, ?_, e2⟩
      rw [e1, h3]
      cases flip <;> cases q <;> simp
  obtain ⟨-, flip, h1, h2⟩ := key _ h
  exact ⟨flip, h1, h2⟩

end

end Dsrg
