import Verif.Model.Indices
import Verif.Lemmas.Sort
import Verif.Lemmas.Itertools
import Verif.Lemmas.Index

/-! Lemmas about index lists: block words, fillings, spin labelings. -/

namespace Dsrg

theorem mapM_except_ok {α β ε : Type} (f : α → Except ε β) (g : α → β) (l : List α) (h : ∀ a ∈ l, f a = .ok (g a)) :
    l.mapM f = .ok (l.map g) := by
  induction l with
  | nil => rfl
  | cons a l ih =>
    rw [List.mapM_cons, h a (by simp), ih fun b hb => h b (List.mem_cons_of_mem _ hb)]
    rfl

theorem getElem?_set_flatten {part : List (List Index)} {i : Nat} {x : Index} {rest : List Index}
    (h : part[i]? = some (x :: rest)) : part.flatten.Perm (x :: (part.set i rest).flatten) := by
  induction part generalizing i with
  | nil => simp at h
  | cons b part ih =>
    cases i with
    | zero =>
      simp at h
      subst h
      simp
    | succ i =>
      simp only [List.getElem?_cons_succ] at h
      simp only [List.set_cons_succ, List.flatten_cons]
      refine ((ih h).append_left b).trans ?_
      exact List.perm_middle

theorem count_flatten_replicate (part : List (List Index)) (i k : Nat) :
    ((part.mapIdx fun j b => List.replicate b.length (j + k)).flatten).count (i + k) = (part.getD i []).length := by
  induction part generalizing i k with
  | nil => simp
  | cons b part ih =>
    rw [List.mapIdx_cons, List.flatten_cons, List.count_append]
    cases i with
    | zero =>
      simp only [Nat.zero_add, List.count_replicate_self, List.getD_cons_zero]
      have : ((part.mapIdx fun j b => List.replicate b.length (j + 1 + k)).flatten).count k = 0 := by
        rw [List.count_eq_zero]
        intro hmem
        rw [List.mem_flatten] at hmem
        obtain ⟨l, hl, hk⟩ := hmem
        rw [List.mem_mapIdx] at hl
        obtain ⟨j, hj, rfl⟩ := hl
        rw [List.mem_replicate] at hk
        omega
      omega
    | succ i =>
      have h1 : (List.replicate b.length (0 + k)).count (i + 1 + k) = 0 := by
        rw [List.count_eq_zero]
        intro hmem
        rw [List.mem_replicate] at hmem
        omega
      have h2 := ih i (k + 1)
      rw [h1, List.getD_cons_succ, ← h2, Nat.zero_add]
      congr 1
      · omega
      · congr 2
        funext j b
        congr 1
        omega

theorem count_blockWord (part : List (List Index)) (i : Nat) :
    (blockWord part).count i = (part.getD i []).length := by
  have := count_flatten_replicate part i 0
  simpa [blockWord] using this

theorem length_blockWord (part : List (List Index)) : (blockWord part).length = part.flatten.length := by
  rw [blockWord, List.length_flatten, List.length_flatten]
  congr 1
  apply List.ext_getElem <;> simp

theorem perm_blockWord_iff {part : List (List Index)} {w : List Nat} :
    w.Perm (blockWord part) ↔ ∀ i, w.count i = (part.getD i []).length := by
  rw [List.perm_iff_count]
  simp only [count_blockWord]

theorem getD_set (part : List (List Index)) (i j : Nat) (r : List Index) (hi : i < part.length) :
    (part.set i r).getD j [] = if j = i then r else part.getD j [] := by
  rw [List.getD_eq_getElem?_getD, List.getD_eq_getElem?_getD, List.getElem?_set]
  by_cases h : i = j
  · subst h; simp [hi]
  · rw [if_neg h, if_neg (Ne.symm h)]

theorem lt_length_of_getElem? {α : Type} {l : List α} {i : Nat} {x : α} (h : l[i]? = some x) : i < l.length := by
  by_contra hc
  rw [List.getElem?_eq_none (by omega)] at h
  simp at h

/-- A block word can always be filled. -/
theorem fillWord_ok (w : List Nat) (part : List (List Index)) (h : ∀ i, w.count i = (part.getD i []).length) :
    ∃ l, fillWord part w = .ok l ∧ l.Perm part.flatten ∧ (∀ b ∈ part, b.Sublist l) ∧
      List.Forall₂ (fun i x => x ∈ part.getD i []) w l := by
  induction w generalizing part with
  | nil =>
    refine ⟨[], rfl, ?_, ?_, List.Forall₂.nil⟩
    · have : part.flatten = [] := by
        rw [List.flatten_eq_nil_iff]
        intro b hb
        obtain ⟨i, hi, rfl⟩ := List.getElem_of_mem hb
        have := h i
        simp [List.getD_eq_getElem?_getD, hi] at this
        exact List.length_eq_zero_iff.1 this.symm
      rw [this]
    · intro b hb
      obtain ⟨i, hi, rfl⟩ := List.getElem_of_mem hb
      have := h i
      simp [List.getD_eq_getElem?_getD, hi] at this
      rw [List.length_eq_zero_iff.1 this.symm]
  | cons i w ih =>
    have hi := h i
    rw [List.count_cons_self] at hi
    obtain ⟨x, rest, hx⟩ : ∃ x rest, part.getD i [] = x :: rest := by
      cases hp : part.getD i [] with
      | nil => rw [hp] at hi; simp at hi
      | cons x rest => exact ⟨x, rest, rfl⟩
    have hget : part[i]? = some (x :: rest) := by
      rw [List.getD_eq_getElem?_getD] at hx
      cases hp : part[i]? with
      | none => rw [hp] at hx; simp at hx
      | some b => rw [hp] at hx; simpa using hx
    have hlt := lt_length_of_getElem? hget
    have h' : ∀ j, w.count j = ((part.set i rest).getD j []).length := by
      intro j
      rw [getD_set _ _ _ _ hlt]
      have hj := h j
      by_cases hji : j = i
      · subst hji
        rw [if_pos rfl]
        rw [hx] at hi; simp at hi; exact hi
      · rw [if_neg hji, ← hj, List.count_cons_of_ne (Ne.symm hji)]
    obtain ⟨l, hl, hperm, hsub, hfor⟩ := ih (part.set i rest) h'
    refine ⟨x :: l, ?_, ?_, ?_, ?_⟩
    · rw [fillWord, hget]
      simp only [hl]
      rfl
    · exact (hperm.cons x).trans (getElem?_set_flatten hget).symm
    · intro b hb
      obtain ⟨j, hj, rfl⟩ := List.getElem_of_mem hb
      by_cases hji : j = i
      · subst hji
        rw [List.getElem?_eq_getElem hj, Option.some.injEq] at hget
        rw [hget]
        apply List.Sublist.cons_cons
        apply hsub
        exact List.mem_set hj rest
      · apply List.Sublist.cons
        apply hsub
        rw [List.mem_iff_getElem?]
        exact ⟨j, by rw [List.getElem?_set_ne (Ne.symm hji), List.getElem?_eq_getElem hj]⟩
    · refine List.Forall₂.cons (by rw [hx]; simp) ?_
      refine hfor.imp ?_
      intro j y hy
      rw [getD_set _ _ _ _ hlt] at hy
      by_cases hji : j = i
      · subst hji; rw [if_pos rfl] at hy; rw [hx]; exact List.mem_cons_of_mem _ hy
      · rwa [if_neg hji] at hy

theorem block_unique {part : List (List Index)} (hn : part.flatten.Nodup) {i j : Nat} {x : Index}
    (hi : x ∈ part.getD i []) (hj : x ∈ part.getD j []) : i = j := by
  induction part generalizing i j with
  | nil => simp at hi
  | cons b part ih =>
    rw [List.flatten_cons, List.nodup_append] at hn
    have hmem : ∀ {k}, x ∈ part.getD k [] → x ∈ part.flatten := by
      intro k hk
      rw [List.getD_eq_getElem?_getD] at hk
      cases hp : part[k]? with
      | none => rw [hp] at hk; simp at hk
      | some c =>
        rw [hp] at hk
        rw [List.mem_flatten]
        exact ⟨c, List.mem_of_getElem? hp, by simpa using hk⟩
    cases i with
    | zero =>
      cases j with
      | zero => rfl
      | succ j =>
        rw [List.getD_cons_zero] at hi
        rw [List.getD_cons_succ] at hj
        exact absurd rfl (hn.2.2 x hi x (hmem hj))
    | succ i =>
      cases j with
      | zero =>
        rw [List.getD_cons_zero] at hj
        rw [List.getD_cons_succ] at hi
        exact absurd rfl (hn.2.2 x hj x (hmem hi))
      | succ j =>
        rw [List.getD_cons_succ] at hi hj
        rw [ih hn.2.1 hi hj]

theorem fillWord_injective {part : List (List Index)} (hn : part.flatten.Nodup) {w w' : List Nat} {l : List Index}
    (h : List.Forall₂ (fun i x => x ∈ part.getD i []) w l) (h' : List.Forall₂ (fun i x => x ∈ part.getD i []) w' l) :
    w = w' := by
  induction h generalizing w' with
  | nil => cases h'; rfl
  | cons hx _ ih =>
    cases h' with
    | cons hx' ht' => rw [block_unique hn hx hx', ih ht']

/-- Every rearrangement that keeps the order inside the blocks is a filling. -/
theorem fillWord_surjective (l : List Index) (part : List (List Index)) (hn : l.Nodup) (hp : l.Perm part.flatten)
    (hs : ∀ b ∈ part, b.Sublist l) :
    ∃ w, fillWord part w = .ok l ∧ ∀ i, w.count i = (part.getD i []).length := by
  induction l generalizing part with
  | nil =>
    refine ⟨[], rfl, fun i => ?_⟩
    have hnil : part.flatten = [] := hp.symm.eq_nil
    rw [List.flatten_eq_nil_iff] at hnil
    rw [List.getD_eq_getElem?_getD]
    cases hg : part[i]? with
    | none => simp
    | some b => simp [hnil b (List.mem_of_getElem? hg)]
  | cons x l ih =>
    have hnp : part.flatten.Nodup := (hp.nodup_iff).1 hn
    rw [List.nodup_cons] at hn
    have hx : x ∈ part.flatten := hp.subset (by simp)
    rw [List.mem_flatten] at hx
    obtain ⟨b, hb, hxb⟩ := hx
    obtain ⟨i, hi, rfl⟩ := List.getElem_of_mem hb
    have hsub := hs _ hb
    obtain ⟨rest, hrest, hrl⟩ : ∃ rest, part[i] = x :: rest ∧ rest.Sublist l := by
      rw [List.sublist_cons_iff] at hsub
      rcases hsub with h | h
      · exact absurd (h.subset hxb) hn.1
      · obtain ⟨r, h1, h2⟩ := h; exact ⟨r, h1, h2⟩
    have hget : part[i]? = some (x :: rest) := by rw [List.getElem?_eq_getElem hi, hrest]
    have hp' : l.Perm (part.set i rest).flatten :=
      List.Perm.cons_inv (hp.trans (getElem?_set_flatten hget))
    have hs' : ∀ b ∈ part.set i rest, b.Sublist l := by
      intro b hb
      obtain ⟨j, hj, rfl⟩ := List.getElem_of_mem hb
      rw [List.getElem_set]
      by_cases hji : i = j
      · subst hji; rw [if_pos rfl]; exact hrl
      · rw [if_neg hji]
        have hj' : j < part.length := by simpa using hj
        have h1 := hs part[j] (List.getElem_mem hj')
        rw [List.sublist_cons_iff] at h1
        rcases h1 with h1 | ⟨r, h1, -⟩
        · exact h1
        · exfalso
          apply hji
          apply block_unique hnp (x := x)
          · rw [List.getD_eq_getElem?_getD, hget]; simp
          · rw [List.getD_eq_getElem?_getD, List.getElem?_eq_getElem hj', h1]; simp
    obtain ⟨w, hw, hc⟩ := ih (part.set i rest) hn.2 hp' hs'
    refine ⟨i :: w, ?_, ?_⟩
    · rw [fillWord, hget]
      simp only [hw]
      rfl
    · intro j
      have hj := hc j
      rw [getD_set _ _ _ _ hi] at hj
      by_cases hji : j = i
      · subst hji
        rw [if_pos rfl] at hj
        rw [List.count_cons_self, hj, List.getD_eq_getElem?_getD, hget]; simp
      · rw [if_neg hji] at hj
        rw [List.count_cons_of_ne (Ne.symm hji), hj]

/-! ### Spin labelings -/

theorem Index.toAlpha_of_not_beta {i : Index} (h : i.isBeta = false) : i.toAlpha = i := by
  obtain ⟨⟨k, b⟩, n⟩ := i
  simp [Index.isBeta] at h
  simp [Index.toAlpha, h]

theorem Index.toBeta_of_beta {i : Index} (h : i.isBeta = true) : i.toBeta = i := by
  obtain ⟨⟨k, b⟩, n⟩ := i
  simp [Index.isBeta] at h
  simp [Index.toBeta, h]

theorem Index.toAlpha_toBeta (i : Index) : i.toBeta.toAlpha = i.toAlpha := rfl
theorem Index.toBeta_toAlpha (i : Index) : i.toAlpha.toBeta = i.toBeta := rfl
theorem Index.isBeta_toBeta (i : Index) : i.toBeta.isBeta = true := rfl
theorem Index.isBeta_toAlpha (i : Index) : i.toAlpha.isBeta = false := rfl

theorem Index.eq_of_toAlpha_eq {i j : Index} (h : i.toAlpha = j.toAlpha) (hb : i.isBeta = j.isBeta) : i = j := by
  obtain ⟨⟨k, b⟩, n⟩ := i
  obtain ⟨⟨k', b'⟩, n'⟩ := j
  simp [Index.toAlpha] at h
  simp [Index.isBeta] at hb
  simp [h, hb]

theorem applySpins_spec {l : List Index} {spins : List Bool} (hl : ∀ i ∈ l, i.isBeta = false)
    (hlen : spins.length = l.length) :
    (applySpins l spins).map Index.toAlpha = l ∧ (applySpins l spins).map Index.isBeta = spins := by
  induction l generalizing spins with
  | nil =>
    have : spins = [] := List.length_eq_zero_iff.1 (by simpa using hlen)
    subst this; simp [applySpins]
  | cons i l ih =>
    cases spins with
    | nil => simp at hlen
    | cons s spins =>
      have := ih (fun j hj => hl j (List.mem_cons_of_mem _ hj)) (spins := spins) (by simpa using hlen)
      simp only [applySpins] at this
      have hi := hl i (by simp)
      simp only [applySpins, List.zipWith_cons_cons, List.map_cons, this.1, this.2, List.cons.injEq, and_true]
      cases s
      · simp [Index.toAlpha_of_not_beta hi, hi]
      · simp [Index.toAlpha_toBeta, Index.toAlpha_of_not_beta hi, Index.isBeta_toBeta]

theorem eq_of_spin_eq {l l' : List Index} (h : l.map Index.toAlpha = l'.map Index.toAlpha)
    (hb : l.map Index.isBeta = l'.map Index.isBeta) : l = l' := by
  induction l generalizing l' with
  | nil => cases l' <;> simp_all
  | cons i l ih =>
    cases l' with
    | nil => simp at h
    | cons j l' =>
      simp only [List.map_cons, List.cons.injEq] at h hb
      rw [Index.eq_of_toAlpha_eq h.1 hb.1, ih h.2 hb.2]

theorem nodup_of_toAlpha {l l' : List Index} (h : l'.map Index.toAlpha = l) (hn : l.Nodup) : l'.Nodup := by
  subst h; exact hn.of_map

theorem flipPositions_getElem? (l : List Index) (pos : List Nat) (k : Nat) :
    (flipPositions l pos)[k]? = l[k]?.map fun i => if k ∈ pos then i.toBeta else i := by
  unfold flipPositions
  induction pos generalizing l with
  | nil => simp
  | cons p pos ih =>
    rw [List.foldl_cons, ih, List.getElem?_modify]
    by_cases hpk : p = k
    · subst hpk
      cases l[p]? with
      | none => rfl
      | some i => simp; intro; rfl
    · cases l[k]? with
      | none => rfl
      | some i => simp [hpk, Ne.symm hpk]

theorem flipPositions_spec {l : List Index} (hl : ∀ i ∈ l, i.isBeta = false) (pos : List Nat) :
    (flipPositions l pos).map Index.toAlpha = l ∧
    (flipPositions l pos).map Index.isBeta = (List.range l.length).map fun k => decide (k ∈ pos) := by
  constructor
  · apply List.ext_getElem?
    intro k
    rw [List.getElem?_map, flipPositions_getElem?]
    cases hk : l[k]? with
    | none => rfl
    | some i =>
      have hi := hl i (List.mem_of_getElem? hk)
      simp only [Option.map_some, Option.some.injEq]
      split
      · rw [Index.toAlpha_toBeta, Index.toAlpha_of_not_beta hi]
      · rw [Index.toAlpha_of_not_beta hi]
  · apply List.ext_getElem?
    intro k
    rw [List.getElem?_map, flipPositions_getElem?, List.getElem?_map]
    by_cases hk : k < l.length
    · rw [List.getElem?_range hk, List.getElem?_eq_getElem hk]
      have hi := hl _ (List.getElem_mem hk)
      simp only [Option.map_some, Option.some.injEq]
      by_cases hp : k ∈ pos
      · simp [hp, Index.isBeta_toBeta]
      · simp [hp, hi]
    · rw [List.getElem?_eq_none (by omega), List.getElem?_eq_none (by simp; omega)]; rfl

end Dsrg
