import Verif.Model.Elementary
import Mathlib.Data.List.Basic
import Mathlib.Data.List.Nodup
import Mathlib.Data.List.Perm.Basic

/-!
Dictionaries as item lists.
-/

namespace Dsrg

section
variable {κ ν : Type} [DecidableEq κ]

theorem keys_dictAppend (d : Dict κ (List ν)) (k : κ) (v : ν) :
    (dictAppend d k v).map Prod.fst = if k ∈ d.map Prod.fst then d.map Prod.fst else d.map Prod.fst ++ [k] := by
  induction d with
  | nil => simp [dictAppend]
  | cons e d ih =>
    obtain ⟨k', vs⟩ := e
    by_cases h : k' = k
    · simp [dictAppend, h]
    · have h' : ¬ k = k' := fun h'' => h h''.symm
      simp only [dictAppend, if_neg h, List.map_cons, ih, List.mem_cons, h', false_or]
      split <;> simp

theorem dictGet_dictAppend (d : Dict κ (List ν)) (k k' : κ) (v : ν) :
    dictGet (dictAppend d k v) k' = if k = k' then dictGet d k' ++ [v] else dictGet d k' := by
  induction d with
  | nil =>
    by_cases h : k = k' <;> simp [dictAppend, dictGet, h]
  | cons e d ih =>
    obtain ⟨k'', vs⟩ := e
    by_cases h1 : k'' = k
    · by_cases h2 : k'' = k'
      · simp [dictAppend, dictGet, h1, ← h2]
      · simp only [dictAppend, if_pos h1, dictGet, if_neg h2]
        rw [if_neg (by rw [← h1]; exact h2)]
    · by_cases h2 : k'' = k'
      · simp only [dictAppend, if_neg h1, dictGet, if_pos h2]
        rw [if_neg (by rw [← h2]; exact fun h => h1 h.symm)]
      · simp [dictAppend, if_neg h1, dictGet, if_neg h2, ih]

theorem dictAppend_ne_nil (d : Dict κ (List ν)) (k : κ) (v : ν) (h : ∀ e ∈ d, e.2 ≠ []) :
    ∀ e ∈ dictAppend d k v, e.2 ≠ [] := by
  induction d with
  | nil => simp [dictAppend]
  | cons e d ih =>
    obtain ⟨k', vs⟩ := e
    rw [List.forall_mem_cons] at h
    by_cases h1 : k' = k
    · simp only [dictAppend, if_pos h1, List.forall_mem_cons]
      exact ⟨by simp, h.2⟩
    · simp only [dictAppend, if_neg h1, List.forall_mem_cons]
      exact ⟨h.1, ih h.2⟩

theorem dictCollect_append (events : List (κ × ν)) (e : κ × ν) :
    dictCollect (events ++ [e]) = dictAppend (dictCollect events) e.1 e.2 := by
  simp [dictCollect, List.foldl_append]

theorem mem_keys_dictCollect (events : List (κ × ν)) (k : κ) :
    k ∈ (dictCollect events).map Prod.fst ↔ k ∈ events.map Prod.fst := by
  induction events using List.reverseRecOn with
  | nil => simp [dictCollect]
  | append_singleton events e ih =>
    rw [dictCollect_append, keys_dictAppend]
    split
    · next h =>
      rw [List.map_append, List.mem_append, ih]
      constructor
      · exact Or.inl
      · rintro (h' | h')
        · exact h'
        · simp at h'; subst h'; rw [ih] at h; exact h
    · rw [List.map_append, List.mem_append, List.mem_append, ih]; simp

theorem nodup_keys_dictCollect (events : List (κ × ν)) : ((dictCollect events).map Prod.fst).Nodup := by
  induction events using List.reverseRecOn with
  | nil => simp [dictCollect]
  | append_singleton events e ih =>
    rw [dictCollect_append, keys_dictAppend]
    split
    · exact ih
    · next h =>
      rw [List.nodup_append]
      refine ⟨ih, by simp, ?_⟩
      rintro a ha b hb rfl
      simp at hb; subst hb; exact h ha

theorem dictGet_dictCollect (events : List (κ × ν)) (k : κ) :
    dictGet (dictCollect events) k = (events.filter fun e => decide (e.1 = k)).map Prod.snd := by
  induction events using List.reverseRecOn with
  | nil => simp [dictCollect, dictGet]
  | append_singleton events e ih =>
    rw [dictCollect_append, dictGet_dictAppend, ih, List.filter_append, List.map_append]
    by_cases h : e.1 = k <;> simp [h]

theorem dictCollect_ne_nil (events : List (κ × ν)) : ∀ e ∈ dictCollect events, e.2 ≠ [] := by
  induction events using List.reverseRecOn with
  | nil => simp [dictCollect]
  | append_singleton events e ih =>
    rw [dictCollect_append]; exact dictAppend_ne_nil _ _ _ ih

theorem dictGet_of_mem {d : Dict κ (List ν)} (hn : (d.map Prod.fst).Nodup) {k : κ} {vs : List ν} (h : (k, vs) ∈ d) :
    dictGet d k = vs := by
  induction d with
  | nil => simp at h
  | cons e d ih =>
    obtain ⟨k', vs'⟩ := e
    rw [List.map_cons, List.nodup_cons] at hn
    rw [List.mem_cons] at h
    rcases h with h | h
    · simp at h; simp [dictGet, h]
    · have : k' ≠ k := by
        rintro rfl; exact hn.1 (List.mem_map.2 ⟨_, h, rfl⟩)
      simp only [dictGet, if_neg this]
      exact ih hn.2 h

theorem dictGet_of_not_mem {d : Dict κ (List ν)} {k : κ} (h : k ∉ d.map Prod.fst) : dictGet d k = [] := by
  induction d with
  | nil => rfl
  | cons e d ih =>
    obtain ⟨k', vs'⟩ := e
    rw [List.map_cons, List.mem_cons, not_or] at h
    have hk : ¬ k' = k := fun h' => h.1 h'.symm
    simp only [dictGet, if_neg hk]
    exact ih h.2

theorem mem_of_dictGet {d : Dict κ (List ν)} {k : κ} (h : k ∈ d.map Prod.fst) : (k, dictGet d k) ∈ d := by
  induction d with
  | nil => simp at h
  | cons e d ih =>
    obtain ⟨k', vs'⟩ := e
    by_cases hk : k' = k
    · simp [dictGet, hk]
    · rw [List.map_cons, List.mem_cons] at h
      rcases h with h | h
      · exact absurd h.symm hk
      · simp only [dictGet, if_neg hk]
        exact List.mem_cons_of_mem _ (ih h)

theorem exists_mem_dictCollect {ev : List (κ × ν)} {key : κ} {t : ν} :
    (∃ ts, (key, ts) ∈ dictCollect ev ∧ t ∈ ts) ↔ (key, t) ∈ ev := by
  constructor
  · rintro ⟨ts, hts, ht⟩
    rw [← dictGet_of_mem (nodup_keys_dictCollect ev) hts, dictGet_dictCollect] at ht
    simp at ht; exact ht
  · intro h
    refine ⟨dictGet (dictCollect ev) key, mem_of_dictGet ?_, ?_⟩
    · rw [mem_keys_dictCollect]; exact List.mem_map.2 ⟨_, h, rfl⟩
    · rw [dictGet_dictCollect]; simp [h]

/-- All values of the dictionary together are the appended values. -/
theorem dictAppend_values_perm (d : Dict κ (List ν)) (k : κ) (v : ν) :
    ((dictAppend d k v).map Prod.snd).flatten.Perm ((d.map Prod.snd).flatten ++ [v]) := by
  induction d with
  | nil => simp [dictAppend]
  | cons e d ih =>
    obtain ⟨k', vs⟩ := e
    by_cases h1 : k' = k
    · simp only [dictAppend, if_pos h1, List.map_cons, List.flatten_cons, List.append_assoc]
      exact List.Perm.append_left _ List.perm_append_comm
    · simp only [dictAppend, if_neg h1, List.map_cons, List.flatten_cons, List.append_assoc]
      exact List.Perm.append_left _ ih

theorem dictCollect_values_perm (events : List (κ × ν)) :
    ((dictCollect events).map Prod.snd).flatten.Perm (events.map Prod.snd) := by
  induction events using List.reverseRecOn with
  | nil => simp [dictCollect]
  | append_singleton events e ih =>
    rw [dictCollect_append, List.map_append]
    exact (dictAppend_values_perm _ _ _).trans (List.Perm.append_right _ ih)

theorem dictSet_of_not_mem {μ : Type} (d : Dict κ μ) (k : κ) (v : μ) (h : k ∉ d.map Prod.fst) : dictSet d k v = d ++ [(k, v)] := by
  induction d with
  | nil => rfl
  | cons e d ih =>
    obtain ⟨k', v'⟩ := e
    rw [List.map_cons, List.mem_cons, not_or] at h
    have hk : ¬ k' = k := fun h' => h.1 h'.symm
    simp only [dictSet, if_neg hk, List.cons_append]
    rw [ih h.2]

/-- Updating with a dictionary that has no key in common appends its items. -/
theorem dictUpdate_of_disjoint {μ : Type} (d e : Dict κ μ) (hn : (e.map Prod.fst).Nodup)
    (h : ∀ k ∈ e.map Prod.fst, k ∉ d.map Prod.fst) : dictUpdate d e = d ++ e := by
  induction e generalizing d with
  | nil => simp [dictUpdate]
  | cons x e ih =>
    rw [List.map_cons, List.nodup_cons] at hn
    have hx := h x.1 (by simp)
    rw [dictUpdate, List.foldl_cons, dictSet_of_not_mem d _ _ hx]
    change dictUpdate (d ++ [(x.1, x.2)]) e = _
    rw [ih _ hn.2]
    · simp
    · intro k hk
      rw [List.map_append, List.mem_append, not_or]
      refine ⟨h k (by simp at hk ⊢; exact Or.inr hk), ?_⟩
      simp
      rintro rfl; exact hn.1 hk

end

end Dsrg
