import Verif.Model.Combine
import Verif.Lemmas.Index

/-!
The string of a term determines its tensors and operator.
-/

namespace Dsrg

theorem append_cons_cancel {α : Type} {c : α} : ∀ {a b r r' : List α}, c ∉ a → c ∉ b → a ++ c :: r = b ++ c :: r' → a = b ∧ r = r'
  | [], [], r, r', _, _, h => by simpa using h
  | [], y :: b, r, r', _, hb, h => by
    simp only [List.nil_append, List.cons_append, List.cons.injEq] at h
    exact absurd (by simp [h.1]) hb
  | x :: a, [], r, r', ha, _, h => by
    simp only [List.nil_append, List.cons_append, List.cons.injEq] at h
    exact absurd (by simp [h.1]) ha
  | x :: a, y :: b, r, r', ha, hb, h => by
    simp only [List.cons_append, List.cons.injEq] at h
    simp only [List.mem_cons, not_or] at ha hb
    obtain ⟨e1, e2⟩ := append_cons_cancel ha.2 hb.2 h.2
    exact ⟨by rw [h.1, e1], e2⟩

theorem not_mem_natStr {ch : Char} (h : isDigitChar ch = false) (n : Nat) : ch ∉ natStr n := by
  intro hm
  rw [natStr_digits n ch hm] at h
  exact absurd h (by decide)

theorem Index.latex_cancel {i j : Index} {r r' : PyStr} (h : i.latex ++ r = j.latex ++ r') : i = j ∧ r = r' := by
  simp only [Index.latex, List.cons_append, List.cons.injEq, true_and, List.append_assoc, List.nil_append] at h
  obtain ⟨h1, h2⟩ := h
  obtain ⟨e1, e2⟩ := append_cons_cancel (not_mem_natStr (by decide) _) (not_mem_natStr (by decide) _) h2
  have e3 := Space.toChar_injective h1
  have e4 := natStr_injective e1
  cases i; cases j
  simp only at e3 e4
  exact ⟨by rw [e3, e4], e2⟩

/-- The labels, each followed by a space, and the closing brace. -/
def labelsTail : List Index → PyStr
  | [] => ['}']
  | i :: l => i.latex ++ ' ' :: labelsTail l

theorem labelsTail_cancel : ∀ {l l' : List Index} {r r' : PyStr}, labelsTail l ++ r = labelsTail l' ++ r' → l = l' ∧ r = r'
  | [], [], r, r', h => by simpa [labelsTail] using h
  | [], j :: l', r, r', h => by
    simp only [labelsTail, Index.latex, List.cons_append, List.cons.injEq] at h
    exact absurd h.1 (by cases j with | mk s n => exact (by decide : ∀ s : Space, ¬ '}' = s.toChar) s)
  | i :: l, [], r, r', h => by
    simp only [labelsTail, Index.latex, List.cons_append, List.cons.injEq] at h
    exact absurd h.1 (by cases i with | mk s n => exact (by decide : ∀ s : Space, ¬ s.toChar = '}') s)
  | i :: l, j :: l', r, r', h => by
    simp only [labelsTail, List.append_assoc] at h
    obtain ⟨e1, e2⟩ := Index.latex_cancel h
    simp only [List.cons_append, List.cons.injEq, true_and] at e2
    obtain ⟨e3, e4⟩ := labelsTail_cancel e2
    exact ⟨by rw [e1, e3], e4⟩

theorem joinSpace_labels : ∀ l : List Index, l ≠ [] → joinSpace (l.map Index.latex) ++ [' ', '}'] = labelsTail l
  | [], h => absurd rfl h
  | [i], _ => by simp [joinSpace, labelsTail]
  | i :: j :: l, _ => by
    have := joinSpace_labels (j :: l) (by simp)
    simp only [List.map_cons, joinSpace] at this ⊢
    rw [labelsTail, ← this]
    simp

theorem Indices.latex_cancel {x y : Indices} {r r' : PyStr} (h : x.latex ++ r = y.latex ++ r') : x.list = y.list ∧ r = r' := by
  have hne : ∀ s : Space, ¬ s.toChar = ' ' := by decide
  obtain ⟨tx, lx⟩ := x
  obtain ⟨ty, ly⟩ := y
  simp only [Indices.latex, List.cons_append, List.cons.injEq, true_and] at h
  cases lx with
  | nil =>
    cases ly with
    | nil => simpa [joinSpace] using h
    | cons j l =>
      rw [joinSpace_labels (j :: l) (by simp)] at h
      simp only [List.map_nil, joinSpace, labelsTail, Index.latex, List.cons_append, List.nil_append, List.cons.injEq] at h
      exact absurd h.1.symm (hne _)
  | cons i l =>
    cases ly with
    | nil =>
      rw [joinSpace_labels (i :: l) (by simp)] at h
      simp only [List.map_nil, joinSpace, labelsTail, Index.latex, List.cons_append, List.nil_append, List.cons.injEq] at h
      exact absurd h.1 (hne _)
    | cons j l' =>
      rw [joinSpace_labels (i :: l) (by simp), joinSpace_labels (j :: l') (by simp)] at h
      exact labelsTail_cancel h

theorem IndicesPair.latex_cancel {x y : IndicesPair} {r r' : PyStr} (h : x.latex ++ r = y.latex ++ r') :
    (x.upper.list = y.upper.list ∧ x.lower.list = y.lower.list) ∧ r = r' := by
  simp only [IndicesPair.latex, List.cons_append, List.cons.injEq, true_and, List.append_assoc] at h
  obtain ⟨e1, e2⟩ := Indices.latex_cancel h
  simp only [List.cons.injEq, true_and] at e2
  obtain ⟨e3, e4⟩ := Indices.latex_cancel e2
  exact ⟨⟨e1, e3⟩, e4⟩

/-- What the string of a tensor shows. -/
def Tensor.shown (t : Tensor) : PyStr × List Index × List Index := (t.name, t.upper.list, t.lower.list)

theorem Tensor.latex_cancel {x y : Tensor} (hx : '^' ∉ x.name) (hy : '^' ∉ y.name) {r r' : PyStr} (h : x.latex ++ r = y.latex ++ r') :
    x.shown = y.shown ∧ r = r' := by
  simp only [Tensor.latex, List.append_assoc] at h
  have hx' : x.pair.latex ++ r = '^' :: (x.upper.latex ++ '_' :: x.lower.latex ++ r) := by simp [IndicesPair.latex]
  have hy' : y.pair.latex ++ r' = '^' :: (y.upper.latex ++ '_' :: y.lower.latex ++ r') := by simp [IndicesPair.latex]
  have h' := h
  rw [hx', hy'] at h'
  obtain ⟨e1, e2⟩ := append_cons_cancel hx hy h'
  have e3 : x.pair.latex ++ r = y.pair.latex ++ r' := by rw [hx', hy', e2]
  obtain ⟨e4, e5⟩ := IndicesPair.latex_cancel e3
  exact ⟨by simp [Tensor.shown, Tensor.upper, Tensor.lower, e1, e4.1, e4.2], e5⟩

/-- The strings of the tensors, each followed by a space. -/
def tensorsTail : List Tensor → PyStr → PyStr
  | [], r => r
  | t :: ts, r => t.latex ++ ' ' :: tensorsTail ts r

theorem hashTerm_tail : ∀ (ts : List Tensor) (r : PyStr), ts ≠ [] → joinSpace (ts.map Tensor.latex) ++ ' ' :: r = tensorsTail ts r
  | [], _, h => absurd rfl h
  | [t], r, _ => by simp [joinSpace, tensorsTail]
  | t :: t' :: ts, r, _ => by
    have := hashTerm_tail (t' :: ts) r (by simp)
    simp only [List.map_cons, joinSpace] at this ⊢
    rw [tensorsTail, ← this]
    simp

/-- The operator, as a tensor with name `a`. -/
def opTensor (op : SqOp) : Tensor := ⟨.tensor, ['a'], 0, op⟩

theorem latex_opTensor (op : SqOp) : SqOp.latex op = (opTensor op).latex := rfl

theorem Tensor.latex_ne_nil (t : Tensor) : t.latex ≠ [] := by simp [Tensor.latex, IndicesPair.latex]

theorem tensorsTail_cancel : ∀ {ts ts' : List Tensor} {op op' : SqOp}, (∀ t ∈ ts, '^' ∉ t.name) → (∀ t ∈ ts', '^' ∉ t.name) →
    tensorsTail ts (SqOp.latex op) = tensorsTail ts' (SqOp.latex op') →
    ts.map Tensor.shown = ts'.map Tensor.shown ∧ op.upper.list = op'.upper.list ∧ op.lower.list = op'.lower.list
  | [], [], op, op', _, _, h => by
    simp only [tensorsTail, latex_opTensor] at h
    have := Tensor.latex_cancel (x := opTensor op) (y := opTensor op') (r := []) (r' := []) (by simp [opTensor]) (by simp [opTensor]) (by simpa using h)
    simp only [Tensor.shown, Prod.mk.injEq] at this
    exact ⟨rfl, this.1.2⟩
  | [], t :: ts', op, op', _, h2, h => by
    simp only [tensorsTail, latex_opTensor] at h
    have := Tensor.latex_cancel (x := opTensor op) (y := t) (r := []) (by simp [opTensor]) (h2 t (by simp)) (by simpa using h)
    exact absurd this.2 (by simp)
  | t :: ts, [], op, op', h1, _, h => by
    simp only [tensorsTail, latex_opTensor] at h
    have := Tensor.latex_cancel (x := t) (y := opTensor op') (r' := []) (h1 t (by simp)) (by simp [opTensor]) (by simpa using h)
    exact absurd this.2 (by simp)
  | t :: ts, t' :: ts', op, op', h1, h2, h => by
    simp only [tensorsTail] at h
    obtain ⟨e1, e2⟩ := Tensor.latex_cancel (h1 t (by simp)) (h2 t' (by simp)) h
    simp only [List.cons.injEq, true_and] at e2
    obtain ⟨e3, e4⟩ := tensorsTail_cancel (fun x hx => h1 x (by simp [hx])) (fun x hx => h2 x (by simp [hx])) e2
    exact ⟨by simp [e1, e3], e4⟩

theorem Term.hashTerm_cancel {t t' : Term} (h1 : ∀ x ∈ t.tensors, '^' ∉ x.name ∧ ' ' ∉ x.name)
    (h2 : ∀ x ∈ t'.tensors, '^' ∉ x.name ∧ ' ' ∉ x.name) (h : t.hashTerm = t'.hashTerm) :
    t.tensors.map Tensor.shown = t'.tensors.map Tensor.shown ∧ t.sqOp.upper.list = t'.sqOp.upper.list ∧
      t.sqOp.lower.list = t'.sqOp.lower.list := by
  have first : ∀ (ts : List Tensor) (r : PyStr), ts ≠ [] → (∀ x ∈ ts, ' ' ∉ x.name) → ∃ c s, tensorsTail ts r = c :: s ∧ c ≠ ' ' := by
    intro ts r hne hn
    cases ts with
    | nil => exact absurd rfl hne
    | cons x ts =>
      have hx := hn x (by simp)
      simp only [tensorsTail, Tensor.latex, IndicesPair.latex]
      cases hnm : x.name with
      | nil => exact ⟨'^', _, rfl, by decide⟩
      | cons c s => rw [hnm] at hx; exact ⟨c, _, rfl, by rintro rfl; simp at hx⟩
  unfold Term.hashTerm at h
  by_cases e1 : t.tensors = []
  · by_cases e2 : t'.tensors = []
    · rw [e1, e2] at h
      simp only [List.map_nil, joinSpace, List.nil_append, List.cons.injEq, true_and] at h
      rw [e1, e2]
      exact tensorsTail_cancel (ts := []) (ts' := []) (by simp) (by simp) h
    · rw [hashTerm_tail _ _ e2, e1] at h
      obtain ⟨c, s, hc, hne⟩ := first t'.tensors (SqOp.latex t'.sqOp) e2 fun x hx => (h2 x hx).2
      rw [hc] at h
      simp only [List.map_nil, joinSpace, List.nil_append, List.cons.injEq] at h
      exact absurd h.1.symm hne
  · by_cases e2 : t'.tensors = []
    · rw [hashTerm_tail _ _ e1, e2] at h
      obtain ⟨c, s, hc, hne⟩ := first t.tensors (SqOp.latex t.sqOp) e1 fun x hx => (h1 x hx).2
      rw [hc] at h
      simp only [List.map_nil, joinSpace, List.nil_append, List.cons.injEq] at h
      exact absurd h.1 hne
    · rw [hashTerm_tail _ _ e1, hashTerm_tail _ _ e2] at h
      exact tensorsTail_cancel (fun x hx => (h1 x hx).1) (fun x hx => (h2 x hx).1) h

theorem Indices.latex_congr {x y : Indices} (h : x.list = y.list) : x.latex = y.latex := by simp [Indices.latex, h]

theorem Term.hashTerm_congr {t t' : Term} (h : t.tensors.map Tensor.shown = t'.tensors.map Tensor.shown)
    (h1 : t.sqOp.upper.list = t'.sqOp.upper.list) (h2 : t.sqOp.lower.list = t'.sqOp.lower.list) : t.hashTerm = t'.hashTerm := by
  have key : ∀ x : Tensor, x.latex = x.shown.1 ++ '^' :: ((⟨.plain, x.shown.2.1⟩ : Indices).latex ++ '_' :: (⟨.plain, x.shown.2.2⟩ : Indices).latex) :=
    fun x => rfl
  have e : ∀ ts : List Tensor, ts.map Tensor.latex = (ts.map Tensor.shown).map fun s =>
      s.1 ++ '^' :: ((⟨.plain, s.2.1⟩ : Indices).latex ++ '_' :: (⟨.plain, s.2.2⟩ : Indices).latex) := by
    intro ts; rw [List.map_map]; exact List.map_congr_left fun x _ => key x
  unfold Term.hashTerm SqOp.latex IndicesPair.latex
  rw [e, e, h, Indices.latex_congr h1, Indices.latex_congr h2]

end Dsrg
