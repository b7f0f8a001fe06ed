import Verif.Lemmas.Factories
import Verif.Lemmas.Dict
import Verif.Lemmas.Orders
import Verif.Lemmas.Itertools
import Verif.Lemmas.RelabelTotal

/-!
Expanding the labels of the operator into blocks: the replacement map of `make_ddca`, and the sum over all blocks.
-/

namespace Dsrg

/-- A replacement map with distinct keys and distinct fresh labels numbered from `start`. -/
structure FreshDict (d : Dict Index Index) (next : Space → Nat) (start : Nat) : Prop where
  keys : (d.map Prod.fst).Nodup
  vals : (d.map Prod.snd).Nodup
  lt : ∀ e ∈ d, e.2.number < next e.2.space
  ge : ∀ e ∈ d, start ≤ e.2.number
  start_le : ∀ s, start ≤ next s
  le : ∀ s, next s ≤ start + d.length

theorem FreshDict.add {d : Dict Index Index} {next : Space → Nat} {start : Nat} (h : FreshDict d next start) {i : Index}
    (hi : i ∉ d.map Prod.fst) (s : Space) : FreshDict (d ++ [(i, ⟨s, next s⟩)]) (Function.update next s (next s + 1)) start := by
  refine ⟨?_, ?_, ?_, ?_, ?_, ?_⟩
  · rw [List.map_append, List.nodup_append]
    refine ⟨h.keys, by simp, ?_⟩
    intro x hx y hy
    simp only [List.map_cons, List.map_nil, List.mem_singleton] at hy
    rintro rfl
    exact hi (hy ▸ hx)
  · rw [List.map_append, List.nodup_append]
    refine ⟨h.vals, by simp, ?_⟩
    intro x hx y hy
    simp only [List.map_cons, List.map_nil, List.mem_singleton] at hy
    rintro rfl
    obtain ⟨e, he, hee⟩ := List.mem_map.1 hx
    have := h.lt e he
    rw [hee, hy] at this
    simp at this
  · intro e he
    rw [Function.update_apply]
    rcases List.mem_append.1 he with he | he
    · have := h.lt e he
      split_ifs with hc
      · rw [hc] at this; omega
      · exact this
    · rw [List.mem_singleton.1 he]; simp
  · intro e he
    rcases List.mem_append.1 he with he | he
    · exact h.ge e he
    · rw [List.mem_singleton.1 he]; exact h.start_le s
  · intro s'
    rw [Function.update_apply]
    have := h.start_le s
    split_ifs
    · omega
    · exact h.start_le s'
  · intro s'
    rw [Function.update_apply, List.length_append, List.length_singleton]
    have := h.le s
    have := h.le s'
    split_ifs <;> omega

theorem minimalFactor_fresh {start : Nat} (labels : List Index) : ∀ st : Dict Index Index × (Space → Nat), FreshDict st.1 st.2 start →
    FreshDict (minimalFactor st labels).1 (minimalFactor st labels).2 start ∧
      ∃ extra, (minimalFactor st labels).1 = st.1 ++ extra ∧ (∀ e ∈ extra, e.2.space = e.1.space) ∧
        ∀ i, i ∈ (minimalFactor st labels).1.map Prod.fst ↔ i ∈ st.1.map Prod.fst ∨ i ∈ labels := by
  induction labels with
  | nil => intro st h; exact ⟨h, [], by simp [minimalFactor], by simp, fun i => by simp [minimalFactor]⟩
  | cons a labels ih =>
    intro st h
    by_cases ha : a ∈ st.1.map Prod.fst
    · have hstep : minimalFactor st (a :: labels) = minimalFactor st labels := by
        unfold minimalFactor
        rw [List.foldl_cons, if_pos]
        rw [List.any_eq_true]
        obtain ⟨e, he, hea⟩ := List.mem_map.1 ha
        exact ⟨e, he, by simpa using hea⟩
      obtain ⟨h1, extra, h2, h3, h4⟩ := ih st h
      rw [hstep]
      refine ⟨h1, extra, h2, h3, ?_⟩
      intro i
      rw [h4 i, List.mem_cons]
      constructor
      · rintro (h | h)
        · exact Or.inl h
        · exact Or.inr (Or.inr h)
      · rintro (h | rfl | h)
        · exact Or.inl h
        · exact Or.inl ha
        · exact Or.inr h
    · have hstep : minimalFactor st (a :: labels) =
          minimalFactor (st.1 ++ [(a, ⟨a.space, st.2 a.space⟩)], Function.update st.2 a.space (st.2 a.space + 1)) labels := by
        unfold minimalFactor
        rw [List.foldl_cons, if_neg]
        · rfl
        · rw [List.any_eq_true]
          rintro ⟨e, he, hea⟩
          exact ha (List.mem_map.2 ⟨e, he, by simpa using hea⟩)
      obtain ⟨h1, extra, h2, h3, h4⟩ := ih (st.1 ++ [(a, ⟨a.space, st.2 a.space⟩)], Function.update st.2 a.space (st.2 a.space + 1))
        (h.add ha a.space)
      rw [hstep]
      refine ⟨h1, (a, ⟨a.space, st.2 a.space⟩) :: extra, by rw [h2]; simp, ?_, ?_⟩
      · intro e he
        rcases List.mem_cons.1 he with rfl | he
        · rfl
        · exact h3 e he
      · intro i
        rw [h4 i]
        simp [or_assoc, or_comm, or_left_comm]

theorem ddcaFold_spec {start : Nat} : ∀ (labels : List Index) (spaces : List Space) (st : Dict Index Index × (Space → Nat)),
    FreshDict st.1 st.2 start → labels.Nodup → (∀ i ∈ labels, i ∉ st.1.map Prod.fst) → labels.length = spaces.length →
    ∃ new : List Index, new.map Index.space = spaces ∧
      ((labels.zip spaces).foldl (fun (st : Dict Index Index × (Space → Nat)) e =>
        let g := generateNextIndex e.2 st.2
        (dictSet st.1 e.1 g.1, g.2)) st).1 = st.1 ++ labels.zip new ∧
      FreshDict ((labels.zip spaces).foldl (fun (st : Dict Index Index × (Space → Nat)) e =>
        let g := generateNextIndex e.2 st.2
        (dictSet st.1 e.1 g.1, g.2)) st).1 ((labels.zip spaces).foldl (fun (st : Dict Index Index × (Space → Nat)) e =>
        let g := generateNextIndex e.2 st.2
        (dictSet st.1 e.1 g.1, g.2)) st).2 start
  | [], [], st, h, _, _, _ => ⟨[], rfl, by simp, h⟩
  | [], _ :: _, _, _, _, _, hl => by simp at hl
  | _ :: _, [], _, _, _, _, hl => by simp at hl
  | a :: labels, s :: spaces, st, h, hn, hd, hl => by
    have ha : a ∉ st.1.map Prod.fst := hd a (by simp)
    obtain ⟨new, h1, h2, h3⟩ := ddcaFold_spec labels spaces (st.1 ++ [(a, ⟨s, st.2 s⟩)], Function.update st.2 s (st.2 s + 1))
      (h.add ha s) (List.nodup_cons.1 hn).2
      (by
        intro i hi
        simp only [List.map_append, List.map_cons, List.map_nil, List.mem_append, List.mem_singleton, not_or]
        exact ⟨hd i (by simp [hi]), fun e => (List.nodup_cons.1 hn).1 (e ▸ hi)⟩)
      (by simpa using hl)
    refine ⟨⟨s, st.2 s⟩ :: new, by simp [h1], ?_, ?_⟩
    · simp only [List.zip_cons_cons, List.foldl_cons]
      simp only [generateNextIndex, dictSet_of_not_mem _ _ _ ha] at h2 ⊢
      rw [h2]; simp
    · simp only [List.zip_cons_cons, List.foldl_cons]
      simp only [generateNextIndex, dictSet_of_not_mem _ _ _ ha] at h3 ⊢
      exact h3

theorem dictFun_of_mem {d : Dict Index Index} (hk : (d.map Prod.fst).Nodup) {i j : Index} (h : (i, j) ∈ d) : dictFun d i = j := by
  have h1 := (dictFind_ok hk (List.mem_map.2 ⟨_, h, rfl⟩)).2
  have := List.inj_on_of_nodup_map hk h h1 rfl
  exact (Prod.mk.inj this).2.symm

/-- The replacement map of one block: one-to-one, gives the labels of the operator the spaces of the block, and keeps the
spaces of the other labels. -/
theorem ddcaMap_spec {S : Finset Index} {order labels : List Index} {spaces : List Space} (start : Nat) (ho : ∀ i, i ∈ order ↔ i ∈ S)
    (hn : labels.Nodup) (hl : labels.length = spaces.length) :
    (∀ i ∈ S, ∀ j ∈ S, dictFun (ddcaMap order labels spaces start) i = dictFun (ddcaMap order labels spaces start) j → i = j) ∧
      labels.map (fun i => (dictFun (ddcaMap order labels spaces start) i).space) = spaces ∧
      (∀ i ∈ S, i ∉ labels → (dictFun (ddcaMap order labels spaces start) i).space = i.space) ∧
      (∀ i ∈ S, start ≤ (dictFun (ddcaMap order labels spaces start) i).number) ∧
      ∀ i ∈ S, dictFind (ddcaMap order labels spaces start) i = .ok (dictFun (ddcaMap order labels spaces start) i) := by
  have h0 : FreshDict [] (fun _ => start) start := ⟨by simp, by simp, by simp, by simp, by simp, by simp⟩
  obtain ⟨new, h1, h2, h3⟩ := ddcaFold_spec labels spaces ([], fun _ => start) h0 hn (by simp) hl
  obtain ⟨m1, extra, m2, m3, m4⟩ := minimalFactor_fresh order _ h3
  have hd : ddcaMap order labels spaces start = (minimalFactor ((labels.zip spaces).foldl (fun (st : Dict Index Index × (Space → Nat)) e =>
        let g := generateNextIndex e.2 st.2
        (dictSet st.1 e.1 g.1, g.2)) ([], fun _ => start)) order).1 := rfl
  rw [← hd] at m1 m2 m4
  rw [h2] at m2
  simp only [List.nil_append] at m2
  have hkey : ∀ i ∈ S, i ∈ (ddcaMap order labels spaces start).map Prod.fst := fun i hi => (m4 i).2 (Or.inr ((ho i).2 hi))
  have hlen : labels.length = new.length := by rw [hl, ← h1, List.length_map]
  refine ⟨?_, ?_, ?_, ?_, ?_⟩
  · intro i hi j hj e
    have e1 := (dictFind_ok m1.keys (hkey i hi)).2
    have e2 := (dictFind_ok m1.keys (hkey j hj)).2
    rw [e] at e1
    exact (Prod.mk.inj (List.inj_on_of_nodup_map m1.vals e1 e2 rfl)).1
  · refine Eq.trans ?_ h1
    have key : ∀ (k : Nat) (hk : k < labels.length), dictFun (ddcaMap order labels spaces start) labels[k] = new[k]'(by omega) := by
      intro k hk
      apply dictFun_of_mem m1.keys
      rw [m2]
      apply List.mem_append_left
      rw [List.mem_iff_getElem]
      exact ⟨k, by simp; omega, by simp⟩
    apply List.ext_getElem
    · simp [hlen]
    · intro k hk1 hk2
      simp only [List.getElem_map]
      rw [key k (by simpa using hk1)]
  · intro i hi hil
    have e1 := (dictFind_ok m1.keys (hkey i hi)).2
    have : (i, dictFun (ddcaMap order labels spaces start) i) ∈ labels.zip new ++ extra := by rw [← m2]; exact e1
    rcases List.mem_append.1 this with h | h
    · exact absurd (List.of_mem_zip h).1 hil
    · exact m3 _ h
  · intro i hi
    exact m1.ge _ (dictFind_ok m1.keys (hkey i hi)).2
  · intro i hi
    exact (dictFind_ok m1.keys (hkey i hi)).1

/-- The numbers of the new labels are bounded by the number of labels. -/
theorem ddcaMap_lt {S : Finset Index} {order labels : List Index} {spaces : List Space} (start : Nat) (ho : ∀ i, i ∈ order ↔ i ∈ S)
    (hs : ∀ i ∈ labels, i ∈ S) (hn : labels.Nodup) (hl : labels.length = spaces.length) :
    ∀ i ∈ S, (dictFun (ddcaMap order labels spaces start) i).number < start + S.card := by
  have h0 : FreshDict [] (fun _ => start) start := ⟨by simp, by simp, by simp, by simp, by simp, by simp⟩
  obtain ⟨new, h1, h2, h3⟩ := ddcaFold_spec labels spaces ([], fun _ => start) h0 hn (by simp) hl
  obtain ⟨m1, extra, m2, m3, m4⟩ := minimalFactor_fresh order _ h3
  have hd : ddcaMap order labels spaces start = (minimalFactor ((labels.zip spaces).foldl (fun (st : Dict Index Index × (Space → Nat)) e =>
        let g := generateNextIndex e.2 st.2
        (dictSet st.1 e.1 g.1, g.2)) ([], fun _ => start)) order).1 := rfl
  rw [← hd] at m1 m2 m4
  rw [h2] at m4
  have hlen : labels.length = new.length := by rw [hl, ← h1, List.length_map]
  have hkeys : ((ddcaMap order labels spaces start).map Prod.fst).toFinset = S := by
    ext i
    rw [List.mem_toFinset, m4 i, ho i]
    constructor
    · rintro (h | h)
      · refine hs i ?_
        rw [List.nil_append, List.map_fst_zip (by omega)] at h
        exact h
      · exact h
    · exact Or.inr
  have hcard : (ddcaMap order labels spaces start).length = S.card := by
    rw [← hkeys, List.toFinset_card_of_nodup m1.keys, List.length_map]
  intro i hi
  have hk : i ∈ (ddcaMap order labels spaces start).map Prod.fst := (m4 i).2 (Or.inr ((ho i).2 hi))
  have e1 := (dictFind_ok m1.keys hk).2
  have := m1.lt _ e1
  have := m1.le (dictFun (ddcaMap order labels spaces start) i).space
  simp only at *
  omega

section
variable {O R M : Type} [Fintype O] [DecidableEq O] [Inhabited O] [CommRing R] [Algebra ℚ R] [AddCommGroup M] [Module R M]

open Classical in
/-- Renaming labels one-to-one into smaller spaces restricts the sum. -/
theorem Interp.value_restrict (I : Interp O R M) (orb : Orbitals O) (c : ℚ) (ts : List Tensor) (op : SqOp) (f : Index → Index)
    (hinj : ∀ i ∈ labelsOf ts op, ∀ j ∈ labelsOf ts op, f i = f j → i = j)
    (hsp : ∀ i ∈ labelsOf ts op, ∀ o, orb.In (f i).space o → orb.In i.space o) :
    I.value orb c (ts.map (Tensor.relabel f)) (op.relabel f) = (algebraMap ℚ R c) • ∑ σ ∈ orb.assignments (labelsOf ts op),
      if ∀ i ∈ labelsOf ts op, orb.In (f i).space (extendTo σ i) then I.pval (extendTo σ) ts • I.opval (extendTo σ) op else 0 := by
  unfold Interp.value
  rw [labelsOf_relabel]
  congr 1
  rw [sum_pullback orb (labelsOf ts op) f (fun σ => if ∀ i ∈ labelsOf ts op, orb.In (f i).space (σ i) then I.pval σ ts • I.opval σ op else 0)]
  · refine Finset.sum_congr rfl fun τ hτ => ?_
    rw [I.pval_relabel, I.opval_relabel, if_pos]
    intro i hi
    exact Orbitals.extend_in hτ (Finset.mem_image_of_mem f hi)
  · intro σ τ h
    have e1 : (∀ i ∈ labelsOf ts op, orb.In (f i).space (σ i)) ↔ ∀ i ∈ labelsOf ts op, orb.In (f i).space (τ i) := by
      constructor <;> intro k i hi
      · rw [← h i hi]; exact k i hi
      · rw [h i hi]; exact k i hi
    by_cases k : ∀ i ∈ labelsOf ts op, orb.In (f i).space (τ i)
    · rw [if_pos k, if_pos (e1.2 k)]; exact I.summand_congr h
    · rw [if_neg k, if_neg (fun x => k (e1.1 x))]
  · exact hsp
  · intro σ _ hne
    have hc : ∀ i ∈ labelsOf ts op, orb.In (f i).space (σ i) := by
      by_contra hc
      exact hne (if_neg hc)
    exact ⟨hc, fun i hi j hj e => by rw [hinj i hi j hj e]⟩

/-- The elementary space of the orbital that a label is assigned. -/
def elemSpace (orb : Orbitals O) (σ : Index → O) (i : Index) : Space := ⟨(orb.elem (σ i)).kind, i.space.beta⟩

theorem mem_relation_iff (s e : Space) : e ∈ s.relation ↔ e.beta = s.beta ∧ ∃ x : Elem, s.kind.Denotes x ∧ e.kind = x.kind := by
  revert s e; decide +kernel

theorem denotes_kind (x y : Elem) : x.kind.Denotes y ↔ x = y := by revert x y; decide

theorem kind_inj {x y : Elem} (h : x.kind = y.kind) : x = y := by revert x y; decide

/-- One block of the expansion: the value of the term whose operator labels are given the spaces of the block. -/
theorem block_condition {ord : Finset Space → List Space} {orb : Orbitals O} {S : Finset Index} {labels : List Index} (hS : ∀ i ∈ labels, i ∈ S) {spaces : List Space} {f : Index → Index}
    (hsp : List.Forall₂ (fun s (pool : List Space) => s ∈ pool) spaces (labels.map fun i => ord i.space.relation))
    (hord : ∀ (s : Finset Space) x, x ∈ ord s ↔ x ∈ s)
    (hf : labels.map (fun i => (f i).space) = spaces) (hk : ∀ i ∈ S, i ∉ labels → (f i).space = i.space) {σ : Index → O}
    (hσ : ∀ i ∈ S, orb.In i.space (σ i)) :
    (∀ i ∈ S, orb.In (f i).space (σ i)) ↔ labels.map (elemSpace orb σ) = spaces := by
  have hmem : ∀ i ∈ labels, (f i).space ∈ i.space.relation := by
    subst hf
    rw [List.forall₂_map_left_iff, List.forall₂_map_right_iff, List.forall₂_same] at hsp
    intro i hi
    exact (hord _ _).1 (hsp i hi)
  rw [← hf, List.map_inj_left]
  constructor
  · intro h i hi
    obtain ⟨h1, x, h2, h3⟩ := (mem_relation_iff _ _).1 (hmem i hi)
    obtain ⟨k1, k2⟩ := h i (hS i hi)
    rw [h3, denotes_kind] at k1
    show (⟨(orb.elem (σ i)).kind, i.space.beta⟩ : Space) = (f i).space
    rw [← k1, ← h3, ← h1]
  · intro h i hi
    by_cases hil : i ∈ labels
    · rw [← h i hil]
      exact ⟨(denotes_kind _ _).2 rfl, (hσ i hi).2⟩
    · rw [hk i hi hil]; exact hσ i hi


theorem sum_map_ite_nodup {α M : Type} [AddCommMonoid M] [DecidableEq α] {l : List α} (h : l.Nodup) (a : α) (v : M) :
    (l.map fun x => if a = x then v else 0).sum = if a ∈ l then v else 0 := by
  induction l with
  | nil => simp
  | cons b l ih =>
    obtain ⟨h1, h2⟩ := List.nodup_cons.1 h
    rw [List.map_cons, List.sum_cons, ih h2]
    by_cases e : a = b
    · subst e; simp [h1]
    · simp [e]

/-- The blocks that are not skipped. -/
def ddcaKeeps (maxCore maxVirt : Int) (singleRef : Bool) (spaces : List Space) : Bool :=
  decide (((spaces.countP fun s => decide (s.kind = .c) : Nat) : Int) ≤ maxCore ∧ ((spaces.countP fun s => decide (s.kind = .v) : Nat) : Int) ≤ maxVirt ∧
    (singleRef = true → (spaces.countP fun s => decide (s.kind = .a)) = 0))

theorem mapM_filterMap {α β : Type} (keep : α → Bool) (g : α → Except PyErr β) (G : α → Except PyErr (Option β))
    (h1 : ∀ a, keep a = false → G a = .ok none) (h2 : ∀ a, keep a = true → G a = (g a).map some) :
    ∀ (l : List α) (rows : List (Option β)), l.mapM G = .ok rows → List.Forall₂ (fun a r => g a = .ok r) (l.filter keep) (rows.filterMap id)
  | [], rows, h => by simp [pure, Except.pure] at h; subst h; simp
  | a :: l, rows, h => by
    obtain ⟨b, bs, hb, hbs, rfl⟩ := mapM_cons_ok.1 h
    have ih := mapM_filterMap keep g G h1 h2 l bs hbs
    cases hk : keep a with
    | false =>
      rw [h1 a hk] at hb
      cases hb
      simpa [List.filter_cons, hk] using ih
    | true =>
      rw [h2 a hk] at hb
      cases hg : g a with
      | error e => rw [hg] at hb; cases hb
      | ok r =>
        rw [hg] at hb
        cases hb
        simp only [List.filter_cons, hk, if_true, List.filterMap_cons, id]
        exact List.Forall₂.cons hg ih

theorem makeDdca_rows {ord : SetOrder} {t : Term} {maxCore maxVirt : Int} {singleRef : Bool} {start : Nat} {rows : List Term}
    (h : t.makeDdca ord maxCore maxVirt singleRef start = .ok rows) :
    List.Forall₂ (fun spaces r => (do
      let ρ := dictFind (ddcaMap (ord.indices t.indicesSet) t.sqOp.indices spaces start)
      let op ← replaceSqOp ρ t.sqOp
      let ts ← replaceTensors ρ t.tensors
      Term.make ts op t.coeff) = .ok r)
      ((pyProduct (t.sqOp.indices.map fun i => ord.spaces i.space.relation)).filter (ddcaKeeps maxCore maxVirt singleRef)) rows := by
  unfold Term.makeDdca at h
  simp only [bind, Except.bind] at h
  split at h
  · cases h
  · rename_i v hv
    cases h
    refine mapM_filterMap (ddcaKeeps maxCore maxVirt singleRef) _ _ ?_ ?_ _ _ hv
    · intro sp hk
      simp only [ddcaKeeps, decide_eq_false_iff_not, not_and_or, not_le] at hk
      by_cases h1 : ((sp.countP fun s => decide (s.kind = .c) : Nat) : Int) > maxCore ∨ ((sp.countP fun s => decide (s.kind = .v) : Nat) : Int) > maxVirt
      · rw [if_pos h1]; rfl
      · rw [if_neg h1, if_pos]
        · rfl
        · rcases hk with hk | hk | hk
          · exact absurd (Or.inl hk) h1
          · exact absurd (Or.inr hk) h1
          · push Not at hk
            exact ⟨hk.2, hk.1⟩
    · intro sp hk
      simp only [ddcaKeeps, decide_eq_true_eq] at hk
      rw [if_neg (by omega), if_neg (by rintro ⟨k1, k2⟩; exact k1 (hk.2.2 k2))]
      simp only [bind, Except.bind]
      cases replaceSqOp (dictFind (ddcaMap (ord.indices t.indicesSet) t.sqOp.indices sp start)) t.sqOp with
      | error e => rfl
      | ok op =>
        simp only
        cases replaceTensors (dictFind (ddcaMap (ord.indices t.indicesSet) t.sqOp.indices sp start)) t.tensors with
        | error e => rfl
        | ok ts =>
          simp only
          cases Term.make ts op t.coeff <;> rfl

/-- One row of the expansion. -/
theorem ddcaRow_ok {ρ : Index → Except PyErr Index} {f : Index → Index} (hρ : Realizes ρ f) {t r : Term}
    (h : (do
      let op ← replaceSqOp ρ t.sqOp
      let ts ← replaceTensors ρ t.tensors
      Term.make ts op t.coeff) = .ok r) :
    r.coeff = t.coeff ∧ r.sqOp = t.sqOp.relabel f ∧ r.tensors.Perm (t.tensors.map (Tensor.relabel f)) := by
  simp only [bind, Except.bind] at h
  cases h1 : replaceSqOp ρ t.sqOp with
  | error e => rw [h1] at h; cases h
  | ok op =>
    rw [h1] at h
    simp only at h
    cases h2 : replaceTensors ρ t.tensors with
    | error e => rw [h2] at h; cases h
    | ok ts =>
      rw [h2] at h
      simp only at h
      obtain ⟨-, -, -, rfl⟩ := Term.make_ok.1 h
      refine ⟨rfl, (replaceSqOp_ok hρ h1).1, ?_⟩
      rw [← (replaceTensors_ok hρ h2).2.1]
      exact sortTensors_perm ts

omit [Fintype O] [DecidableEq O] [Inhabited O] in
theorem ddcaKeeps_elem (orb : Orbitals O) (σ : Index → O) (labels : List Index) (maxCore maxVirt : Int) (singleRef : Bool) :
    ddcaKeeps maxCore maxVirt singleRef (labels.map (elemSpace orb σ)) = true ↔
      ((labels.countP fun i => decide (orb.elem (σ i) = .core) : Nat) : Int) ≤ maxCore ∧
      ((labels.countP fun i => decide (orb.elem (σ i) = .virt) : Nat) : Int) ≤ maxVirt ∧
      (singleRef = true → ∀ i ∈ labels, orb.elem (σ i) ≠ .active) := by
  have hc : ∀ x : Elem, (x.kind = .c ↔ x = .core) ∧ (x.kind = .v ↔ x = .virt) ∧ (x.kind = .a ↔ x = .active) := by decide
  unfold ddcaKeeps
  rw [decide_eq_true_eq]
  simp only [List.countP_map, Function.comp_def, elemSpace, (hc _).1, (hc _).2.1, (hc _).2.2, List.countP_eq_zero, decide_eq_true_eq]

/-- The labels of the operator are replaced by labels of the same spin in one of their elementary spaces. -/
theorem ddcaMap_mem {ord : SetOrder} (hord : ord.Lawful) {labels : List Index} {sp : List Space} {f : Index → Index}
    (hsp : sp ∈ pyProduct (labels.map fun i => ord.spaces i.space.relation)) (hf : labels.map (fun i => (f i).space) = sp) :
    ∀ i ∈ labels, (f i).space ∈ i.space.relation := by
  have := mem_pyProduct.1 hsp
  rw [← hf, List.forall₂_map_left_iff, List.forall₂_map_right_iff, List.forall₂_same] at this
  intro i hi
  exact (hord.mem_spaces _ _).1 (this i hi)

theorem makeDdca_total {ord : SetOrder} (hord : ord.Lawful) {ts : List Tensor} {op : SqOp} {c : ℚ} {t : Term} (ht : Term.make ts op c = .ok t)
    (hn : (t.sqOp.upper.list ++ t.sqOp.lower.list).Nodup) (hop : IndicesPair.Constructed t.sqOp) (hne : t.tensors ≠ []) (htens : ∀ x ∈ t.tensors, x.Constructed)
    (hcl : ∀ x ∈ t.tensors, x.cls = .cluster → ∀ i ∈ x.upper.list ++ x.lower.list, i.space.kind ≠ .g)
    (maxCore maxVirt : Int) (singleRef : Bool) (start : Nat) : ∃ rows, t.makeDdca ord maxCore maxVirt singleRef start = .ok rows := by
  have hS : t.indicesSet = labelsOf t.tensors t.sqOp := by
    obtain ⟨-, -, -, rfl⟩ := Term.make_ok.1 ht
    exact (labelsOf_perm (sortTensors_perm ts) op).symm
  have hmk : ∃ t', Term.make t.tensors t.sqOp t.coeff = .ok t' := by
    obtain ⟨h1, h2, h3, rfl⟩ := Term.make_ok.1 ht
    have hp := sortTensors_perm ts
    have hd : diagonalOf (sortTensors ts) op = diagonalOf ts op := by
      ext i; rw [mem_diagonalOf, mem_diagonalOf]; simp only [hp.mem_iff]
    refine ⟨_, Term.make_ok.2 ⟨fun x hx => h1 x (hp.mem_iff.1 hx), ?_, ?_, rfl⟩⟩
    · intro i hi hid
      rw [hd] at hid
      rw [(labelList_perm hp op).count_eq]
      exact h2 i ((labelList_perm hp op).mem_iff.1 hi) hid
    · intro i hi
      rw [hd] at hi
      rw [(labelList_perm hp op).count_eq]
      exact h3 i hi
  unfold Term.makeDdca
  have hall : ∀ sp ∈ pyProduct (t.sqOp.indices.map fun i => ord.spaces i.space.relation), ∃ r : Option Term,
      (if ((sp.countP fun s => decide (s.kind = .c) : Nat) : Int) > maxCore ∨ ((sp.countP fun s => decide (s.kind = .v) : Nat) : Int) > maxVirt then
      pure none
    else if (sp.countP fun s => decide (s.kind = .a)) ≠ 0 ∧ singleRef = true then pure none
    else do
      let ρ := dictFind (ddcaMap (ord.indices t.indicesSet) t.sqOp.indices sp start)
      let op ← replaceSqOp ρ t.sqOp
      let ts ← replaceTensors ρ t.tensors
      let r ← Term.make ts op t.coeff
      pure (some r) : Except PyErr (Option Term)) = .ok r := by
    intro sp hsp
    split_ifs
    · exact ⟨none, rfl⟩
    · exact ⟨none, rfl⟩
    · have hlen : t.sqOp.indices.length = sp.length := by
        rw [(mem_pyProduct.1 hsp).length_eq, List.length_map]
      obtain ⟨k1, k2, k3, -, k5⟩ := ddcaMap_spec (S := labelsOf t.tensors t.sqOp) (order := ord.indices t.indicesSet) (labels := t.sqOp.indices) start
        (fun i => by rw [hord.mem_indices, hS]) hn hlen
      have k6 := ddcaMap_mem hord hsp k2
      set f := dictFun (ddcaMap (ord.indices t.indicesSet) t.sqOp.indices sp start) with hf
      have hbeta : ∀ i ∈ labelsOf t.tensors t.sqOp, (f i).space.beta = i.space.beta := by
        intro i hi
        by_cases hil : i ∈ t.sqOp.indices
        · exact ((mem_relation_iff _ _).1 (k6 i hil)).1
        · rw [k3 i hi hil]
      have hopl : ∀ i ∈ t.sqOp.upper.list ++ t.sqOp.lower.list, i ∈ labelsOf t.tensors t.sqOp := by
        intro i hi; rw [mem_labelsOf, mem_labelList]; exact Or.inl hi
      have htl : ∀ x ∈ t.tensors, ∀ i ∈ x.upper.list ++ x.lower.list, i ∈ labelsOf t.tensors t.sqOp := by
        intro x hx i hi; rw [mem_labelsOf, mem_labelList]; exact Or.inr ⟨x, hx, hi⟩
      have e1 := replaceSqOp_total hop (fun i hi => k5 i (hopl i hi)) (fun i hi j hj => k1 i (hopl i hi) j (hopl j hj)) fun i hi => hbeta i (hopl i hi)
      have e2 : replaceTensors (dictFind (ddcaMap (ord.indices t.indicesSet) t.sqOp.indices sp start)) t.tensors = .ok (t.tensors.map (Tensor.relabel f)) := by
        unfold replaceTensors
        rw [if_neg (by simpa using hne)]
        refine mapM_ok_of_forall fun x hx => ?_
        refine replaceTensor_total (htens x hx) (fun i hi => k5 i (htl x hx i hi)) (fun i hi j hj => k1 i (htl x hx i hi) j (htl x hx j hj))
          (fun i hi => hbeta i (htl x hx i hi)) ?_
        intro hc i hi
        by_cases hil : i ∈ t.sqOp.indices
        · exact Or.inr ⟨hcl x hx hc i hi, k6 i hil⟩
        · exact Or.inl (by rw [k3 i (htl x hx i hi) hil])
      obtain ⟨r, e3⟩ := Term.make_relabel hmk k1 t.coeff
      simp only [bind, Except.bind]
      rw [e1]
      simp only
      rw [e2]
      simp only
      rw [e3]
      exact ⟨some r, rfl⟩
  choose! G hG using hall
  simp only
  rw [mapM_ok_of_forall hG]
  exact ⟨_, rfl⟩

theorem forall₂_filter {α β : Type} {P : α → β → Prop} {f : α → Bool} {g : β → Bool} (hfg : ∀ a b, P a b → f a = g b) :
    ∀ {l : List α} {l' : List β}, List.Forall₂ P l l' → List.Forall₂ P (l.filter f) (l'.filter g)
  | _, _, .nil => .nil
  | a :: l, b :: l', .cons h t => by
    have ih := forall₂_filter hfg t
    rw [List.filter_cons, List.filter_cons, hfg a b h]
    split
    · exact .cons h ih
    · exact ih

open Classical in
/-- The rows of `make_ddca` whose block is selected. -/
theorem makeDdca_select_value {ord : SetOrder} (hord : ord.Lawful) {ts : List Tensor} {op : SqOp} {c : ℚ} {t : Term} (ht : Term.make ts op c = .ok t)
    (hn : (t.sqOp.upper.list ++ t.sqOp.lower.list).Nodup) {maxCore maxVirt : Int} {singleRef : Bool} {start : Nat} {rows : List Term}
    (h : t.makeDdca ord maxCore maxVirt singleRef start = .ok rows) (orb : Orbitals O) (I : Interp O R M)
    (sel : List Space → Bool) :
    ((rows.filter fun r => sel (r.sqOp.indices.map Index.space)).map fun r => I.value orb r.coeff r.tensors r.sqOp).sum =
      (algebraMap ℚ R t.coeff) • ∑ σ ∈ orb.assignments (labelsOf t.tensors t.sqOp),
      if (ddcaKeeps maxCore maxVirt singleRef (t.sqOp.indices.map (elemSpace orb (extendTo σ))) &&
          sel (t.sqOp.indices.map (elemSpace orb (extendTo σ)))) = true then
        I.pval (extendTo σ) t.tensors • I.opval (extendTo σ) t.sqOp else 0 := by
  have hS : t.indicesSet = labelsOf t.tensors t.sqOp := by
    obtain ⟨-, -, -, rfl⟩ := Term.make_ok.1 ht
    exact (labelsOf_perm (sortTensors_perm ts) op).symm
  have hlab : ∀ i ∈ t.sqOp.indices, i ∈ labelsOf t.tensors t.sqOp := by
    intro i hi; rw [mem_labelsOf, mem_labelList]; exact Or.inl hi
  set pools := t.sqOp.indices.map fun i => ord.spaces i.space.relation with hpools
  have hrows' := makeDdca_rows h
  rw [← hpools] at hrows'
  -- the value of one row
  have hval : ∀ sp ∈ pyProduct pools, ∀ r : Term, (do
      let ρ := dictFind (ddcaMap (ord.indices t.indicesSet) t.sqOp.indices sp start)
      let op ← replaceSqOp ρ t.sqOp
      let ts ← replaceTensors ρ t.tensors
      Term.make ts op t.coeff) = .ok r → I.value orb r.coeff r.tensors r.sqOp = (algebraMap ℚ R t.coeff) •
        ∑ σ ∈ orb.assignments (labelsOf t.tensors t.sqOp), if t.sqOp.indices.map (elemSpace orb (extendTo σ)) = sp then
          I.pval (extendTo σ) t.tensors • I.opval (extendTo σ) t.sqOp else 0 := by
    intro sp hsp r hr
    have hsp' := mem_pyProduct.1 hsp
    have hlen : t.sqOp.indices.length = sp.length := by
      rw [hsp'.length_eq, hpools, List.length_map]
    obtain ⟨k1, k2, k3, k4, -⟩ := ddcaMap_spec (S := labelsOf t.tensors t.sqOp) (order := ord.indices t.indicesSet) (labels := t.sqOp.indices) start
      (fun i => by rw [hord.mem_indices, hS]) hn hlen
    obtain ⟨e1, e2, e3⟩ := ddcaRow_ok (realizes_dictFind _) hr
    rw [e1, e2, I.value_perm orb t.coeff e3, I.value_restrict orb t.coeff t.tensors t.sqOp _ k1]
    · congr 1
      refine Finset.sum_congr rfl fun σ hσ => ?_
      have := block_condition (orb := orb) (S := labelsOf t.tensors t.sqOp) hlab (ord := ord.spaces) hsp' (hord.mem_spaces) k2 k3 (σ := extendTo σ)
        (fun i hi => Orbitals.extend_in hσ hi)
      exact if_congr this rfl rfl
    · intro i hi o ho
      by_cases hil : i ∈ t.sqOp.indices
      · have hmem : (dictFun (ddcaMap (ord.indices t.indicesSet) t.sqOp.indices sp start) i).space ∈ i.space.relation := by
          have := hsp'
          rw [← k2, hpools, List.forall₂_map_left_iff, List.forall₂_map_right_iff, List.forall₂_same] at this
          exact (hord.mem_spaces _ _).1 (this i hil)
        obtain ⟨h1, x, h2, h3⟩ := (mem_relation_iff _ _).1 hmem
        refine ⟨?_, by rw [← h1]; exact ho.2⟩
        have := ho.1
        rw [h3, denotes_kind] at this
        rw [← this]; exact h2
      · rwa [k3 i hi hil] at ho
  -- the block of one row
  have hblock : ∀ sp ∈ pyProduct pools, ∀ r : Term, (do
      let ρ := dictFind (ddcaMap (ord.indices t.indicesSet) t.sqOp.indices sp start)
      let op ← replaceSqOp ρ t.sqOp
      let ts ← replaceTensors ρ t.tensors
      Term.make ts op t.coeff) = .ok r → r.sqOp.indices.map Index.space = sp := by
    intro sp hsp r hr
    have hlen : t.sqOp.indices.length = sp.length := by
      rw [(mem_pyProduct.1 hsp).length_eq, hpools, List.length_map]
    obtain ⟨-, k2, -, -, -⟩ := ddcaMap_spec (S := labelsOf t.tensors t.sqOp) (order := ord.indices t.indicesSet) (labels := t.sqOp.indices) start
      (fun i => by rw [hord.mem_indices, hS]) hn hlen
    obtain ⟨-, e2, -⟩ := ddcaRow_ok (realizes_dictFind _) hr
    rw [e2]
    refine Eq.trans ?_ k2
    simp only [IndicesPair.relabel, IndicesPair.indices, ← List.map_append, List.map_map]
    rfl
  have hrows : List.Forall₂ (fun spaces r => (do
      let ρ := dictFind (ddcaMap (ord.indices t.indicesSet) t.sqOp.indices spaces start)
      let op ← replaceSqOp ρ t.sqOp
      let ts ← replaceTensors ρ t.tensors
      Term.make ts op t.coeff) = .ok r) (((pyProduct pools).filter (ddcaKeeps maxCore maxVirt singleRef)).filter sel)
        (rows.filter fun r => sel (r.sqOp.indices.map Index.space)) := by
    have hmem : List.Forall₂ (fun spaces r => spaces ∈ pyProduct pools ∧ (do
        let ρ := dictFind (ddcaMap (ord.indices t.indicesSet) t.sqOp.indices spaces start)
        let op ← replaceSqOp ρ t.sqOp
        let ts ← replaceTensors ρ t.tensors
        Term.make ts op t.coeff) = .ok r) ((pyProduct pools).filter (ddcaKeeps maxCore maxVirt singleRef)) rows :=
      (List.forall₂_and_left _ _).2 ⟨fun sp hsp => (List.mem_filter.1 hsp).1, hrows'⟩
    refine List.Forall₂.imp (fun _ _ h => h.2) (forall₂_filter (fun sp r hr => ?_) hmem)
    rw [hblock sp hr.1 r hr.2]
  -- the sum over the blocks
  have hsum : ∀ (bs : List (List Space)) (rs : List Term), (∀ sp ∈ bs, sp ∈ pyProduct pools) → List.Forall₂ (fun spaces r => (do
      let ρ := dictFind (ddcaMap (ord.indices t.indicesSet) t.sqOp.indices spaces start)
      let op ← replaceSqOp ρ t.sqOp
      let ts ← replaceTensors ρ t.tensors
      Term.make ts op t.coeff) = .ok r) bs rs → (rs.map fun r => I.value orb r.coeff r.tensors r.sqOp).sum = (algebraMap ℚ R t.coeff) •
        ∑ σ ∈ orb.assignments (labelsOf t.tensors t.sqOp), (bs.map fun sp => if t.sqOp.indices.map (elemSpace orb (extendTo σ)) = sp then
          I.pval (extendTo σ) t.tensors • I.opval (extendTo σ) t.sqOp else 0).sum := by
    intro bs rs hb hf
    induction hf with
    | nil => simp
    | cons ha _ ih =>
      rw [List.map_cons, List.sum_cons, ih fun sp hsp => hb sp (List.mem_cons_of_mem _ hsp), hval _ (hb _ (by simp)) _ ha, ← smul_add, ← Finset.sum_add_distrib]
      simp only [List.map_cons, List.sum_cons]
  rw [List.filter_filter] at hrows
  rw [hsum _ _ (fun sp hsp => (List.mem_filter.1 hsp).1) hrows]
  congr 1
  refine Finset.sum_congr rfl fun σ hσ => ?_
  have hnd : ((pyProduct pools).filter fun sp => sel sp && ddcaKeeps maxCore maxVirt singleRef sp).Nodup := by
    refine List.Nodup.filter _ (nodup_pyProduct ?_)
    intro p hp
    obtain ⟨i, -, rfl⟩ := List.mem_map.1 hp
    exact hord.spaces_nodup _
  have hin : t.sqOp.indices.map (elemSpace orb (extendTo σ)) ∈ pyProduct pools := by
    rw [mem_pyProduct, hpools, List.forall₂_map_left_iff, List.forall₂_map_right_iff, List.forall₂_same]
    intro i hi
    rw [hord.mem_spaces, mem_relation_iff]
    exact ⟨rfl, _, (Orbitals.extend_in hσ (hlab i hi)).1, rfl⟩
  by_cases hk : (ddcaKeeps maxCore maxVirt singleRef (t.sqOp.indices.map (elemSpace orb (extendTo σ))) &&
      sel (t.sqOp.indices.map (elemSpace orb (extendTo σ)))) = true
  · rw [if_pos hk, sum_map_ite_nodup hnd, if_pos (List.mem_filter.2 ⟨hin, by rw [Bool.and_comm]; exact hk⟩)]
  · rw [if_neg hk, sum_map_ite_nodup hnd, if_neg fun h => hk (by rw [Bool.and_comm]; exact (List.mem_filter.1 h).2)]

open Classical in
theorem makeDdca_value {ord : SetOrder} (hord : ord.Lawful) {ts : List Tensor} {op : SqOp} {c : ℚ} {t : Term} (ht : Term.make ts op c = .ok t)
    (hn : (t.sqOp.upper.list ++ t.sqOp.lower.list).Nodup) {maxCore maxVirt : Int} {singleRef : Bool} {start : Nat} {rows : List Term}
    (h : t.makeDdca ord maxCore maxVirt singleRef start = .ok rows) (orb : Orbitals O) (I : Interp O R M) :
    (rows.map fun r => I.value orb r.coeff r.tensors r.sqOp).sum = (algebraMap ℚ R t.coeff) • ∑ σ ∈ orb.assignments (labelsOf t.tensors t.sqOp),
      if ddcaKeeps maxCore maxVirt singleRef (t.sqOp.indices.map (elemSpace orb (extendTo σ))) then
        I.pval (extendTo σ) t.tensors • I.opval (extendTo σ) t.sqOp else 0 := by
  have := makeDdca_select_value hord ht hn h orb I fun _ => true
  simpa using this

end

end Dsrg
