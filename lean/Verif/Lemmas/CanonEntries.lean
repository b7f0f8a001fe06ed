import Verif.Lemmas.Naming
import Verif.Lemmas.SympyTotal

/-!
Where the factors of a product stand in the list of symmetries handed to SymPy.
-/

namespace Dsrg

/-! ### Runs -/

theorem flatten_locate {α : Type} {x : α} {B : List α} : ∀ {gs : List (List α)} {A : List α}, gs.flatten = A ++ x :: B →
    ∃ gs₁ g gs₂ a b, gs = gs₁ ++ g :: gs₂ ∧ g = a ++ x :: b ∧ A = gs₁.flatten ++ a ∧ B = b ++ gs₂.flatten
  | [], A, h => by simp at h
  | g :: gs, A, h => by
    rw [List.flatten_cons] at h
    by_cases hl : A.length < g.length
    · refine ⟨[], g, gs, A, g.drop (A.length + 1), rfl, ?_, by simp, ?_⟩
      · have h1 : A = g.take A.length := by
          have := congrArg (List.take A.length) h
          rw [List.take_append_of_le_length hl.le, List.take_left' rfl] at this
          exact this.symm
        have h2 : g[A.length] = x := by
          have := List.getElem_of_eq h (i := A.length) (by simp; omega)
          rw [List.getElem_append_left hl, List.getElem_append_right (by omega)] at this
          simpa using this
        conv_lhs => rw [← List.take_append_drop A.length g, List.drop_eq_getElem_cons hl, h2, ← h1]
      · have := congrArg (List.drop (A.length + 1)) h
        rw [List.drop_append_of_le_length (by omega)] at this
        rw [this, ← List.drop_drop, List.drop_left' rfl]; rfl
    · have h1 : g = A.take g.length := by
        have := congrArg (List.take g.length) h
        rw [List.take_left' rfl, List.take_append_of_le_length (by omega)] at this
        exact this
      have h2 : gs.flatten = A.drop g.length ++ x :: B := by
        have := congrArg (List.drop g.length) h
        rw [List.drop_left' rfl, List.drop_append_of_le_length (by omega)] at this
        exact this
      obtain ⟨gs₁, g', gs₂, a, b, rfl, h3, h4, h5⟩ := flatten_locate h2
      refine ⟨g :: gs₁, g', gs₂, a, b, rfl, h3, ?_, h5⟩
      rw [List.flatten_cons, List.append_assoc, ← h4]
      conv_lhs => rw [← List.take_append_drop g.length A, ← h1]

/-- An element and its successor are in one run if they are related. -/
theorem splitBy_locate {α : Type} {r : α → α → Bool} {A B : List α} {x : α} :
    ∃ gs₁ g gs₂ a b, (A ++ x :: B).splitBy r = gs₁ ++ g :: gs₂ ∧ g = a ++ x :: b ∧ A = gs₁.flatten ++ a ∧ B = b ++ gs₂.flatten ∧
      ∀ y B', B = y :: B' → r x y = true → ∃ b', b = y :: b' := by
  obtain ⟨gs₁, g, gs₂, a, b, h1, h2, h3, h4⟩ := flatten_locate (List.flatten_splitBy r (A ++ x :: B))
  refine ⟨gs₁, g, gs₂, a, b, h1, h2, h3, h4, ?_⟩
  intro y B' hB hr
  cases b with
  | cons z b =>
    rw [h4, List.cons_append] at hB
    injection hB with e _
    exact ⟨b, by rw [e]⟩
  | nil =>
    exfalso
    rw [List.nil_append] at h4
    cases gs₂ with
    | nil => rw [h4] at hB; simp at hB
    | cons g' gs₂ =>
      have hc := List.isChain_getLast_head_splitBy r (A ++ x :: B)
      rw [h1, List.isChain_append] at hc
      obtain ⟨ha, hb, hf⟩ := (List.isChain_cons_cons.1 hc.2.1).1
      have e1 : g.getLast ha = x := by subst h2; simp
      have e2 : g'.head hb = y := by
        cases g' with
        | nil => exact absurd rfl hb
        | cons z g' => rw [h4, List.flatten_cons, List.cons_append] at hB; injection hB
      rw [e1, e2, hr] at hf
      cases hf

/-! ### Summations of one space are in one range -/

theorem mem_dummyRanges (gs₁ : List (List Index)) (g : List Index) (gs₂ : List (List Index)) : ∀ start,
    (2 * (start + gs₁.flatten.length), 2 * (start + gs₁.flatten.length + g.length)) ∈ dummyRanges start (gs₁ ++ g :: gs₂) := by
  induction gs₁ with
  | nil => intro start; simp [dummyRanges]
  | cons g' gs₁ ih =>
    intro start
    rw [List.cons_append, dummyRanges, List.flatten_cons, List.length_append]
    refine List.mem_cons_of_mem _ ?_
    have := ih (start + g'.length)
    rwa [Nat.add_assoc start g'.length] at this

theorem sorted_space {D : List Index} (hD : D.Pairwise (· ≤ ·)) {i k j : Nat} (hik : i ≤ k) (hkj : k ≤ j) (hj : j < D.length)
    (h : (D[i]'(by omega)).space = D[j].space) : (D[k]'(by omega)).space = D[j].space := by
  have hle : ∀ a b (ha : a < D.length) (hb : b < D.length), a ≤ b → D[a].space.priority ≤ D[b].space.priority := by
    intro a b ha hb hab
    rcases Nat.lt_or_ge a b with hlt | hge
    · have h1 : D[a] ≤ D[b] := List.pairwise_iff_getElem.1 hD a b ha hb hlt
      have h2 := mt Index.lt_iff.2 (not_lt.2 h1)
      by_contra hc
      exact h2 (Or.inl (by omega))
    · have : a = b := by omega
      subst this; exact le_refl _
  have h1 := hle i k (by omega) (by omega) hik
  have h2 := hle k j (by omega) hj hkj
  have h3 : (D[i]'(by omega)).space.priority = D[j].space.priority := by rw [h]
  exact Space.priority_injective (by omega)

theorem ranges_of_sorted {D : List Index} (hD : D.Pairwise (· ≤ ·)) : Ranges D (dummyRanges 0 (spaceGroups D)) := by
  have main : ∀ i j (hi : i < D.length) (hj : j < D.length), i ≤ j → D[i].space = D[j].space →
      ∃ d ∈ dummyRanges 0 (spaceGroups D), d.1 ≤ 2 * i ∧ 2 * i + 1 < d.2 ∧ d.1 ≤ 2 * j ∧ 2 * j + 1 < d.2 := by
    intro i j hi hj hij h
    have hsp : D = D.take i ++ D[i] :: D.drop (i + 1) := by rw [← List.drop_eq_getElem_cons hi, List.take_append_drop]
    obtain ⟨gs₁, g, gs₂, a, b, h1, h2, h3, h4⟩ := flatten_locate ((List.flatten_splitBy (fun a b : Index => decide (a.space = b.space)) D).trans hsp)
    have hlen : i = gs₁.flatten.length + a.length := by
      have := congrArg List.length h3
      rw [List.length_take, List.length_append] at this; omega
    have hm := mem_dummyRanges gs₁ g gs₂ 0
    rw [← h1] at hm
    refine ⟨_, hm, by simp only []; omega, by simp only [h2, List.length_append, List.length_cons]; omega, by simp only []; omega, ?_⟩
    simp only []
    by_contra hc
    have hle : gs₁.flatten.length + g.length ≤ j := by omega
    -- the boundary after the run of `i`
    set n := gs₁.flatten.length + g.length with hn
    have hgl : g.length = a.length + 1 + b.length := by rw [h2]; simp; omega
    have hn1 : i ≤ n - 1 := by omega
    have hs1 := sorted_space hD (i := i) (k := n - 1) (j := j) hn1 (by omega) hj h
    have hs2 := sorted_space hD (i := i) (k := n) (j := j) (by omega) (by omega) hj h
    cases gs₂ with
    | nil =>
      have := congrArg List.length h4
      simp at this; omega
    | cons g' gs₂ =>
      have hc := List.isChain_getLast_head_splitBy (fun a b : Index => decide (a.space = b.space)) D
      rw [h1, List.isChain_append] at hc
      obtain ⟨ha, hb, hf⟩ := (List.isChain_cons_cons.1 hc.2.1).1
      have hDeq : D = gs₁.flatten ++ (g ++ (g' ++ gs₂.flatten)) := by
        conv_lhs => rw [← List.flatten_splitBy (fun a b : Index => decide (a.space = b.space)) D, h1]
        simp
      have e1 : g.getLast ha = D[n - 1]'(by omega) := by
        rw [List.getLast_eq_getElem]
        have := List.getElem_of_eq hDeq (i := n - 1) (by omega)
        rw [this, List.getElem_append_right (by omega), List.getElem_append_left (by omega)]
        congr 1; omega
      have e2 : g'.head hb = D[n]'(by omega) := by
        rw [List.head_eq_getElem]
        have hg' : 0 < g'.length := List.length_pos_iff.2 hb
        have := List.getElem_of_eq hDeq (i := n) (by omega)
        rw [this, List.getElem_append_right (by omega), List.getElem_append_right (by omega), List.getElem_append_left (by omega)]
        congr 1; omega
      rw [e1, e2, hs1, hs2] at hf
      simp at hf
  intro i j hi hj h
  rcases Nat.le_total i j with hij | hij
  · exact main i j hi hj hij h
  · obtain ⟨d, h1, h2, h3, h4, h5⟩ := main j i hj hi hij h.symm
    exact ⟨d, h1, h4, h5, h2, h3⟩

/-! ### The form of a factor -/

/-- What a factor is apart from its labels. -/
def Tensor.form (x : Tensor) : TCls × PyStr × Int × IType × Nat × Nat := (x.cls, x.name, x.priority, x.upper.ty, x.upper.list.length, x.lower.list.length)

/-- What an operator is apart from its labels. -/
def SqOp.form (op : SqOp) : IType × IType × Nat × Nat := (op.upper.ty, op.lower.ty, op.upper.list.length, op.lower.list.length)

theorem bsgs_congr {x y : IndicesPair} (h1 : x.upper.ty = y.upper.ty) (h2 : x.upper.list.length = y.upper.list.length)
    (h3 : x.lower.list.length = y.lower.list.length) (a b : Bool) : x.bsgs a b = y.bsgs a b := by
  unfold IndicesPair.bsgs IndicesPair.nBody IndicesPair.size IndicesPair.nUpper IndicesPair.nLower Indices.size
  rw [h1, h2, h3]

theorem splitBy_forall₂ {α β : Type} {S : α → β → Prop} {r : α → α → Bool} {r' : β → β → Bool} (hr : ∀ a a' b b', S a a' → S b b' → r a b = r' a' b') :
    ∀ {l : List α} {l' : List β}, List.Forall₂ S l l' → List.Forall₂ (List.Forall₂ S) (l.splitBy r) (l'.splitBy r') := by
  have loop : ∀ {l : List α} {l' : List β}, List.Forall₂ S l l' → ∀ {a a'}, S a a' → ∀ {g g'}, List.Forall₂ S g g' → ∀ {gs gs'},
      List.Forall₂ (List.Forall₂ S) gs gs' → List.Forall₂ (List.Forall₂ S) (List.splitBy.loop r l a g gs) (List.splitBy.loop r' l' a' g' gs') := by
    intro l l' h
    induction h with
    | nil =>
      intro a a' ha g g' hg gs gs' hgs
      rw [List.splitBy.loop, List.splitBy.loop]
      exact List.forall₂_reverse_iff.2 (.cons (List.forall₂_reverse_iff.2 (.cons ha hg)) hgs)
    | @cons b b' l l' hb hl ih =>
      intro a a' ha g g' hg gs gs' hgs
      rw [List.splitBy.loop, List.splitBy.loop, ← hr a a' b b' ha hb]
      cases r a b
      · exact ih hb .nil (.cons (List.forall₂_reverse_iff.2 (.cons ha hg)) hgs)
      · exact ih hb (.cons ha hg) hgs
  intro l l' h
  cases h with
  | nil => exact .nil
  | cons ha hl => exact loop hl ha .nil .nil

theorem mapM_congr₂ {α β γ : Type} {S : α → β → Prop} {f : α → Except PyErr γ} {g : β → Except PyErr γ} (h : ∀ a b, S a b → f a = g b) :
    ∀ {l : List α} {l' : List β}, List.Forall₂ S l l' → l.mapM f = l'.mapM g := by
  intro l l' hl
  induction hl with
  | nil => rfl
  | cons ha _ ih => rw [List.mapM_cons, List.mapM_cons, h _ _ ha, ih]

/-- The symmetries depend on the forms only. -/
theorem bsgsList_congr {ts ts' : List Tensor} {op op' : SqOp} (h : ts.map Tensor.form = ts'.map Tensor.form) (hop : SqOp.form op = SqOp.form op')
    (hermitian : Bool) : bsgsList ts op hermitian = bsgsList ts' op' hermitian := by
  have hf : List.Forall₂ (fun x y : Tensor => x.form = y.form) ts ts' := by
    have : List.Forall₂ Eq (ts.map Tensor.form) (ts'.map Tensor.form) := by rw [List.forall₂_eq_eq_eq]; exact h
    rwa [List.forall₂_map_left_iff, List.forall₂_map_right_iff] at this
  simp only [SqOp.form, Prod.mk.injEq] at hop
  obtain ⟨o1, -, o2, o3⟩ := hop
  have hx : ∀ x y : Tensor, x.form = y.form → x.name = y.name ∧ x.upper.ty = y.upper.ty ∧ x.upper.list.length = y.upper.list.length ∧
      x.lower.list.length = y.lower.list.length := by
    intro x y e
    simp only [Tensor.form, Prod.mk.injEq] at e
    exact ⟨e.2.1, e.2.2.2.1, e.2.2.2.2.1, e.2.2.2.2.2⟩
  have hsz : ∀ x y : IndicesPair, x.upper.list.length = y.upper.list.length → x.lower.list.length = y.lower.list.length → x.size = y.size := by
    intro x y e1 e2
    unfold IndicesPair.size IndicesPair.nUpper IndicesPair.nLower Indices.size
    rw [e1, e2]
  unfold bsgsList
  have e1 : IndicesPair.opBsgs op = IndicesPair.opBsgs op' := by
    unfold IndicesPair.opBsgs
    rw [o1, bsgs_congr o1 o2 o3, bsgs_congr o1 o2 o3]
  have e2 : (ts.mapM fun t => t.pair.nBody) = ts'.mapM fun t => t.pair.nBody :=
    mapM_congr₂ (S := fun x y : Tensor => x.form = y.form) (fun x y e => by
      obtain ⟨-, -, k2, k3⟩ := hx x y e
      unfold IndicesPair.nBody IndicesPair.nUpper IndicesPair.nLower Indices.size
      rw [k2, k3]) hf
  have e3 : (tensorGroups ts).mapM (groupEntry hermitian) = (tensorGroups ts').mapM (groupEntry hermitian) := by
    refine mapM_congr₂ (S := List.Forall₂ fun x y : Tensor => x.form = y.form) ?_ (splitBy_forall₂ ?_ hf)
    · intro g g' hg
      cases hg with
      | nil => rfl
      | @cons x y l l' hxy hl =>
        obtain ⟨-, k1, k2, k3⟩ := hx x y hxy
        unfold groupEntry
        simp only [bsgs_congr k1 k2 k3, hsz _ _ k2 k3, List.length_cons, hl.length_eq]
    · intro a a' b b' h1 h2
      obtain ⟨k1, -, -, k4⟩ := hx _ _ h1
      obtain ⟨m1, -, -, m4⟩ := hx _ _ h2
      unfold IndicesPair.nLower Indices.size
      rw [k1, m1, k4, m4]
  rw [e1, e2, e3, hsz op op' o2 o3]

/-! ### Entries of the factors -/

theorem op_at {ts : List Tensor} {op : SqOp} {hermitian : Bool} {v : List SlotGroup} (h : bsgsList ts op hermitian = .ok v) (h0 : op.size ≠ 0) :
    ∃ e : SlotGroup, e.At v 0 0 ∧ e.size = op.size ∧ op.opBsgs = .ok e.gens := by
  obtain ⟨-, rest, -, ⟨h1, -⟩ | ⟨-, gens, h2, rfl⟩⟩ := bsgsList_ok h
  · exact absurd h1 h0
  · exact ⟨⟨gens, op.size, 1⟩, ⟨[], rest, rfl, by simp, by simp⟩, rfl, h2⟩

theorem tensor_at {A B : List Tensor} {x : Tensor} {op : SqOp} {hermitian : Bool} {v : List SlotGroup}
    (h : bsgsList (A ++ x :: B) op hermitian = .ok v) (hty : ∀ y ∈ A ++ x :: B, y.upper.ty = x.upper.ty) :
    ∃ (e : SlotGroup) (k : Nat), e.At v k (op.size + slotCount A) ∧ e.size = x.pair.size ∧ x.pair.bsgs hermitian false = .ok e.gens ∧
      ∀ y B', B = y :: B' → x.name = y.name → x.pair.nLower = y.pair.nLower → k + 1 < e.count := by
  obtain ⟨hbal, rest, hrest, hv⟩ := bsgsList_ok h
  obtain ⟨gs₁, g, gs₂, a, b, h1, h2, h3, h4, h5⟩ := splitBy_locate (r := fun a b : Tensor => decide (a.name = b.name ∧ a.pair.nLower = b.pair.nLower))
    (A := A) (B := B) (x := x)
  have hflat : (tensorGroups (A ++ x :: B)).flatten = A ++ x :: B := List.flatten_splitBy _ _
  have hgs : tensorGroups (A ++ x :: B) = gs₁ ++ g :: gs₂ := h1
  rw [hgs] at hrest
  have hmem : ∀ g' ∈ gs₁ ++ g :: gs₂, ∀ y ∈ g', y ∈ A ++ x :: B := by
    intro g' hg' y hy; rw [← hflat, hgs]; exact List.mem_flatten.2 ⟨g', hg', hy⟩
  have hsize : ∀ g' ∈ gs₁ ++ g :: gs₂, ∀ p ∈ g'.head?, ∀ q ∈ g', p.pair.size = q.pair.size := by
    intro g' hg' p hp q hq
    have k1 := (tensorGroups_head (by rw [hgs]; exact hg') hp hq).2
    have k2 := hbal p (hmem g' hg' p (List.mem_of_mem_head? hp))
    have k3 := hbal q (hmem g' hg' q hq)
    unfold IndicesPair.size; omega
  obtain ⟨v₁, e, v₂, rfl, f1, f2, -⟩ : ∃ v₁ e v₂, rest = v₁ ++ e :: v₂ ∧
      List.Forall₂ (fun g e => groupEntry hermitian g = .ok e) gs₁ v₁ ∧ groupEntry hermitian g = .ok e ∧
      List.Forall₂ (fun g e => groupEntry hermitian g = .ok e) gs₂ v₂ := by
    obtain ⟨l₁, c, l₂, k1, k2, k3, k4⟩ := forall₂_split (r := fun e g => groupEntry hermitian g = .ok e) (List.Forall₂.flip hrest)
    exact ⟨l₁, c, l₂, k1, k2.flip, k3, k4.flip⟩
  obtain ⟨t₀, rst, hg, hgens, hes, hec⟩ := groupEntry_ok f2
  have hgm : g ∈ tensorGroups (A ++ x :: B) := by rw [hgs]; simp
  have hxg : x ∈ g := by rw [h2]; simp
  have ht₀ : t₀ ∈ g := by rw [hg]; simp
  have hsz : ∀ q ∈ g, t₀.pair.size = q.pair.size := hsize g (by simp) t₀ (by simp [hg])
  have hoff : slotCount A = (v₁.map fun e => e.count * e.size).sum + a.length * e.size := by
    rw [h3, slotCount_append, groups_size gs₁ v₁ f1 (fun g' hg' => hsize g' (by simp [hg'])),
      slotCount_const (g := a) (m := t₀.pair.size) fun q hq => (hsz q (by rw [h2]; simp [hq])).symm, hes]
  have hlen : g.length = a.length + 1 + b.length := by rw [h2]; simp; omega
  refine ⟨e, a.length, ?_, ?_, ?_, ?_⟩
  · rcases hv with ⟨h0, rfl⟩ | ⟨h0, gens, hop, rfl⟩
    · exact ⟨v₁, v₂, rfl, by omega, by omega⟩
    · refine ⟨_ :: v₁, v₂, rfl, by omega, ?_⟩
      simp only [List.map_cons, List.sum_cons]
      omega
  · rw [hes]; exact hsz x hxg
  · rw [← hgens]
    have b0 := hbal t₀ (hmem g (by simp) t₀ ht₀)
    have bx := hbal x (hmem g (by simp) x hxg)
    have hl := (tensorGroups_head hgm (a := t₀) (by simp [hg]) hxg).2
    have hu : t₀.pair.nUpper = x.pair.nUpper := by omega
    exact (bsgs_congr (hty t₀ (hmem g (by simp) t₀ ht₀)) hu hl hermitian false).symm
  · intro y B' hB hn hl
    obtain ⟨b', rfl⟩ := h5 y B' hB (by simp [hn, hl])
    simp at hlen
    omega

end Dsrg
