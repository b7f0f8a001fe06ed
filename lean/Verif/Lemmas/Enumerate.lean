import Verif.Lemmas.Contract
import Verif.Lemmas.MacroSearch
import Verif.Props.MacroSearch

/-!
From the searches over numbers to lists of contractions.
-/

namespace Dsrg

/-- The number of the string that contains the creation operator `i`. -/
def ownerU (ops : List SqOp) (i : Index) : Nat := ops.findIdx fun op => decide (i ∈ op.upper.list)
/-- The number of the string that contains the annihilation operator `i`. -/
def ownerL (ops : List SqOp) (i : Index) : Nat := ops.findIdx fun op => decide (i ∈ op.lower.list)

/-- The strings a contraction involves: of its creation operators, then of its annihilation operators. -/
def ownersOf (ops : List SqOp) (t : Tensor) : List Nat := t.upper.list.map (ownerU ops) ++ t.lower.list.map (ownerL ops)

theorem findIdx_of_nodup (part : SqOp → List Index) {ops : List SqOp} (hn : (ops.flatMap part).Nodup) {k : Nat} {op : SqOp}
    (hk : ops[k]? = some op) {i : Index} (hi : i ∈ part op) : (ops.findIdx fun op => decide (i ∈ part op)) = k := by
  induction ops generalizing k with
  | nil => simp at hk
  | cons o ops ih =>
    rw [List.flatMap_cons, List.nodup_append'] at hn
    rw [List.findIdx_cons]
    cases k with
    | zero =>
      simp only [List.getElem?_cons_zero, Option.some.injEq] at hk
      subst hk; simp [hi]
    | succ k =>
      simp only [List.getElem?_cons_succ] at hk
      have : i ∉ part o := by
        intro h
        exact hn.2.2 h (List.mem_flatMap.2 ⟨op, List.mem_of_getElem? hk, hi⟩)
      simp only [this, decide_false, cond_false]
      rw [ih hn.2.1 hk]

theorem GoodOps.ownerU_eq {ops : List SqOp} (h : GoodOps ops) {k : Nat} {op : SqOp} (hk : ops[k]? = some op) {i : Index}
    (hi : i ∈ op.upper.list) : ownerU ops i = k := findIdx_of_nodup (fun op => op.upper.list) h.upper hk hi
theorem GoodOps.ownerL_eq {ops : List SqOp} (h : GoodOps ops) {k : Nat} {op : SqOp} (hk : ops[k]? = some op) {i : Index}
    (hi : i ∈ op.lower.list) : ownerL ops i = k := findIdx_of_nodup (fun op => op.lower.list) h.lower hk hi

theorem mem_cumulantLegs {part : SqOp → List Index} {ops : List SqOp} {x : Nat × Index} (h : x ∈ cumulantLegs part ops) :
    ∃ op, ops[x.1]? = some op ∧ x.2 ∈ part op ∧ x.2.space.kind ≠ .c ∧ x.2.space.kind ≠ .v := by
  unfold cumulantLegs at h
  rw [List.mem_flatMap] at h
  obtain ⟨⟨op, k⟩, hop, hx⟩ := h
  rw [List.mem_map] at hx
  obtain ⟨i, hi, rfl⟩ := hx
  rw [List.mem_filter] at hi
  exact ⟨op, List.mk_mem_zipIdx_iff_getElem?.1 hop, hi.1, by simpa using hi.2⟩

theorem map_snd_cumulantLegs_sublist (part : SqOp → List Index) (ops : List SqOp) :
    ((cumulantLegs part ops).map Prod.snd).Sublist (ops.flatMap part) := by
  unfold cumulantLegs
  have : ∀ (n : Nat), (((ops.zipIdx n).flatMap fun op => ((part op.1).filter fun i =>
      decide (i.space.kind ≠ .c ∧ i.space.kind ≠ .v)).map fun i => (op.2, i)).map Prod.snd).Sublist (ops.flatMap part) := by
    induction ops with
    | nil => intro n; simp
    | cons op ops ih =>
      intro n
      rw [List.zipIdx_cons, List.flatMap_cons, List.flatMap_cons, List.map_append]
      refine List.Sublist.append ?_ (ih _)
      rw [List.map_map]
      simp only [Function.comp_def, List.map_id']
      exact List.filter_sublist
  exact this 0

theorem key_eq {ops : List SqOp} (h : GoodOps ops) {maxCu : Nat} {key : List Nat} {t : Tensor}
    (ht : PairContraction ops key t ∨ CumulantContraction ops maxCu key t) : key = ownersOf ops t := by
  rcases ht with ⟨i, j, left, right, hij, hi, hj, ⟨u, hu, l, hl, _, rfl, rfl⟩ | ⟨l, hl, u, hu, _, rfl, rfl⟩⟩ |
    ⟨cre, ann, hc, ha, _, _, _, _, rfl, rfl⟩
  · simp [ownersOf, density, h.ownerU_eq hi hu, h.ownerL_eq hj hl]
  · simp [ownersOf, density, h.ownerU_eq hj hu, h.ownerL_eq hi hl]
  · simp only [ownersOf, density, List.map_map]
    congr 1
    · apply List.map_congr_left
      intro x hx
      obtain ⟨op, h1, h2, _⟩ := mem_cumulantLegs (hc.subset hx)
      exact (h.ownerU_eq h1 h2).symm
    · apply List.map_congr_left
      intro x hx
      obtain ⟨op, h1, h2, _⟩ := mem_cumulantLegs (ha.subset hx)
      exact (h.ownerL_eq h1 h2).symm

theorem proper_of_elementary {ops : List SqOp} (h : GoodOps ops) {maxCu : Int} {t : Tensor} (ht : Elementary ops maxCu t) :
    ProperTensor ops t := by
  have mU : ∀ {k : Nat} {op : SqOp} {i : Index}, ops[k]? = some op → i ∈ op.upper.list → i ∈ ops.flatMap fun op => op.upper.list :=
    fun hk hi => List.mem_flatMap.2 ⟨_, List.mem_of_getElem? hk, hi⟩
  have mL : ∀ {k : Nat} {op : SqOp} {i : Index}, ops[k]? = some op → i ∈ op.lower.list → i ∈ ops.flatMap fun op => op.lower.list :=
    fun hk hi => List.mem_flatMap.2 ⟨_, List.mem_of_getElem? hk, hi⟩
  obtain ⟨key, ⟨i, j, left, right, hij, hi, hj, ⟨u, hu, l, hl, _, rfl, rfl⟩ | ⟨l, hl, u, hu, _, rfl, rfl⟩⟩ |
    ⟨cre, ann, hc, ha, hlen, h2, _, _, rfl, rfl⟩⟩ := ht
  · exact ⟨⟨rfl, rfl⟩, Or.inl rfl, fun h => rfl, rfl, by simp [density], by simp [density], by simp [density],
      by simpa [density] using mU hi hu, by simpa [density] using mL hj hl⟩
  · exact ⟨⟨rfl, rfl⟩, Or.inr rfl, fun h => rfl, rfl, by simp [density], by simp [density], by simp [density],
      by simpa [density] using mU hj hu, by simpa [density] using mL hi hl⟩
  · refine ⟨⟨rfl, rfl⟩, Or.inl rfl, fun h => absurd h (by simp [density]), by simpa [density] using hlen, ?_, ?_, ?_, ?_, ?_⟩
    · simp only [density, ne_eq, List.map_eq_nil_iff]; rintro rfl; simp at h2
    · exact (h.upper.sublist (map_snd_cumulantLegs_sublist _ _)).sublist (hc.map _)
    · exact (h.lower.sublist (map_snd_cumulantLegs_sublist _ _)).sublist (ha.map _)
    · intro i hi
      exact (map_snd_cumulantLegs_sublist _ _).subset ((hc.map Prod.snd).subset hi)
    · intro i hi
      exact (map_snd_cumulantLegs_sublist _ _).subset ((ha.map Prod.snd).subset hi)

theorem checkMaxCu_idem {ops : List SqOp} (h : GoodOps ops) (maxCu : Int) :
    checkMaxCu ops (checkMaxCu ops maxCu) = checkMaxCu ops maxCu := by
  obtain ⟨h1, h2, _⟩ := C22_check_max_cu ops h.so maxCu
  obtain ⟨_, _, h3⟩ := C22_check_max_cu ops h.so (checkMaxCu ops maxCu)
  have := h3 h1
  by_cases h4 : 1 < checkMaxCu ops maxCu
  · have := h2 h4; omega
  · omega

/-- The dictionary of the elementary contractions, as one list. -/
theorem dict_flatten {ops : List SqOp} (h : GoodOps ops) (maxCu : Int) :
    ∃ d, elementaryCategorized ops (checkMaxCu ops maxCu) = .ok d ∧ (d.map Prod.fst).Nodup ∧
      (∀ key ts, (key, ts) ∈ d → ts ≠ [] ∧ ts.Nodup ∧ ∀ t ∈ ts, key = ownersOf ops t) ∧
      ∀ t, (∃ key ts, (key, ts) ∈ d ∧ t ∈ ts) ↔ Elementary ops maxCu t := by
  obtain ⟨d, h1, h2, h3, h4⟩ := C25_categorized ops h.so (checkMaxCu ops maxCu) h.upper h.lower
  rw [checkMaxCu_idem h] at h4
  refine ⟨d, h1, h2, ?_, ?_⟩
  · intro key ts hd
    refine ⟨(h3 _ _ hd).1, (h3 _ _ hd).2, ?_⟩
    intro t ht
    exact key_eq h ((h4 key t).1 ⟨ts, hd, ht⟩)
  · intro t
    unfold Elementary
    constructor
    · rintro ⟨key, ts, h5, h6⟩; exact ⟨key, (h4 key t).1 ⟨ts, h5, h6⟩⟩
    · rintro ⟨key, hk⟩; obtain ⟨ts, h5, h6⟩ := (h4 key t).2 hk; exact ⟨key, ts, h5, h6⟩

theorem elementaryList_spec {ops : List SqOp} (h : GoodOps ops) (maxCu : Int) :
    ∃ ele, elementaryList ops (checkMaxCu ops maxCu) = .ok ele ∧ ele.Nodup ∧ ∀ t, t ∈ ele ↔ Elementary ops maxCu t := by
  obtain ⟨d, h1, h2, h3, h4⟩ := dict_flatten h maxCu
  refine ⟨(d.map Prod.snd).flatten, by simp [elementaryList, h1, bind, Except.bind, pure, Except.pure], ?_, ?_⟩
  · rw [← List.flatMap_def, List.nodup_flatMap]
    refine ⟨fun e he => (h3 e.1 e.2 he).2.1, ?_⟩
    rw [List.Nodup, List.pairwise_map] at h2
    refine List.Pairwise.imp_of_mem ?_ h2
    intro a b ha hb hab
    rw [Function.onFun, List.disjoint_left]
    intro t hta htb
    exact hab (((h3 _ _ ha).2.2 t hta).trans ((h3 _ _ hb).2.2 t htb).symm)
  · intro t
    rw [← h4]
    simp only [List.mem_flatten, List.mem_map]
    constructor
    · rintro ⟨_, ⟨e, he, rfl⟩, ht⟩; exact ⟨e.1, e.2, he, ht⟩
    · rintro ⟨key, ts, he, ht⟩; exact ⟨ts, ⟨_, he, rfl⟩, ht⟩

/-! ### Selections of numbers and of contractions -/

/-- `flat[i]`, with a dummy outside. -/
def pick (flat : List Tensor) (i : Nat) : Tensor := (flat[i]?).getD (density .cumulant [] [])

theorem pick_eq {flat : List Tensor} {i : Nat} {t : Tensor} (h : flat[i]? = some t) : pick flat i = t := by simp [pick, h]

theorem posIn_pick {flat : List Tensor} (hn : flat.Nodup) {i : Nat} (hi : i < flat.length) : posIn flat (pick flat i) = i := by
  rw [pick_eq (List.getElem?_eq_getElem hi)]
  exact List.Nodup.idxOf_getElem hn i hi

theorem pick_posIn {flat : List Tensor} {t : Tensor} (h : t ∈ flat) : pick flat (posIn flat t) = t := by
  apply pick_eq
  have : posIn flat t < flat.length := List.idxOf_lt_length_of_mem h
  rw [List.getElem?_eq_getElem this]
  congr 1
  exact List.getElem_idxOf this

theorem posIn_lt {flat : List Tensor} {t : Tensor} (h : t ∈ flat) : posIn flat t < flat.length := List.idxOf_lt_length_of_mem h

theorem pick_mem {flat : List Tensor} {i : Nat} (hi : i < flat.length) : pick flat i ∈ flat := by
  rw [pick_eq (List.getElem?_eq_getElem hi)]; exact List.getElem_mem hi

theorem selections_spec {flat : List Tensor} (hn : flat.Nodup) (conss : List (List Nat))
    (h1 : ∀ con ∈ conss, con.Nodup ∧ ∀ i ∈ con, i < flat.length) (h2 : (conss.map List.toFinset).Nodup) :
    (conss.map fun con => con.map (pick flat)).Pairwise (fun a b => ¬ a.Perm b) ∧
    ∀ ts, (∃ c ∈ conss.map fun con => con.map (pick flat), c.Perm ts) ↔
      ts.Nodup ∧ (∀ t ∈ ts, t ∈ flat) ∧ (ts.map (posIn flat)).toFinset ∈ conss.map List.toFinset := by
  have back : ∀ con ∈ conss, (con.map (pick flat)).map (posIn flat) = con := by
    intro con hcon
    rw [List.map_map]
    conv_rhs => rw [← List.map_id con]
    apply List.map_congr_left
    intro i hi
    exact posIn_pick hn ((h1 con hcon).2 i hi)
  constructor
  · rw [List.pairwise_map]
    rw [List.Nodup, List.pairwise_map] at h2
    refine List.Pairwise.imp_of_mem ?_ h2
    intro a b ha hb hab hp
    apply hab
    have := hp.map (posIn flat)
    rw [back a ha, back b hb] at this
    exact List.toFinset_eq_of_perm _ _ this
  · intro ts
    constructor
    · rintro ⟨c, hc, hp⟩
      rw [List.mem_map] at hc
      obtain ⟨con, hcon, rfl⟩ := hc
      have hb := back con hcon
      have hcn := (h1 con hcon).1
      refine ⟨?_, ?_, ?_⟩
      · refine hp.nodup_iff.1 (List.Nodup.of_map (posIn flat) ?_)
        rw [hb]; exact hcn
      · intro t ht
        have := hp.mem_iff.2 ht
        rw [List.mem_map] at this
        obtain ⟨i, hi, rfl⟩ := this
        exact pick_mem ((h1 con hcon).2 i hi)
      · rw [List.mem_map]
        refine ⟨con, hcon, ?_⟩
        have := hp.map (posIn flat)
        rw [hb] at this
        exact List.toFinset_eq_of_perm _ _ this
    · rintro ⟨hts, hmem, hin⟩
      rw [List.mem_map] at hin
      obtain ⟨con, hcon, he⟩ := hin
      refine ⟨_, List.mem_map.2 ⟨con, hcon, rfl⟩, ?_⟩
      have hinj : (ts.map (posIn flat)).Nodup := by
        refine List.Nodup.map_on ?_ hts
        intro x hx y hy hxy
        rw [← pick_posIn (hmem x hx), ← pick_posIn (hmem y hy), hxy]
      have hp : con.Perm (ts.map (posIn flat)) := by
        rw [List.perm_ext_iff_of_nodup (h1 con hcon).1 hinj]
        intro a
        rw [← List.mem_toFinset, he, List.mem_toFinset]
      have := hp.map (pick flat)
      rw [List.map_map] at this
      convert this using 1
      conv_lhs => rw [← List.map_id ts]
      apply List.map_congr_left
      intro t ht
      exact (pick_posIn (hmem t ht)).symm

end Dsrg
