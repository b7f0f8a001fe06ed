import Verif.Lemmas.Dict
import Verif.Lemmas.Combine
import Verif.Lemmas.PermuteCount
import Verif.Lemmas.Ambit

/-!
Lemmas about `categorize_contractions`.
-/

namespace Dsrg

section
variable {κ ν : Type} [DecidableEq κ]

theorem keys_dictSet {μ : Type} (d : Dict κ μ) (k : κ) (v : μ) :
    (dictSet d k v).map Prod.fst = if k ∈ d.map Prod.fst then d.map Prod.fst else d.map Prod.fst ++ [k] := by
  induction d with
  | nil => simp [dictSet]
  | cons e d ih =>
    obtain ⟨k', v'⟩ := e
    unfold dictSet
    by_cases h : k' = k
    · rw [if_pos h]; simp [h]
    · rw [if_neg h, List.map_cons, ih, List.map_cons]
      have : k ∈ k' :: d.map Prod.fst ↔ k ∈ d.map Prod.fst := by simp [Ne.symm h]
      by_cases hk : k ∈ d.map Prod.fst
      · rw [if_pos hk, if_pos (this.2 hk)]
      · rw [if_neg hk, if_neg (fun h' => hk (this.1 h'))]; rfl

theorem mem_keys_dictSet {μ : Type} (d : Dict κ μ) (k k' : κ) (v : μ) : k' ∈ (dictSet d k v).map Prod.fst ↔ k' = k ∨ k' ∈ d.map Prod.fst := by
  rw [keys_dictSet]
  split_ifs with h
  · constructor
    · exact Or.inr
    · rintro (rfl | h') <;> assumption
  · rw [List.mem_append, List.mem_singleton, or_comm]

theorem nodup_keys_dictSet {μ : Type} {d : Dict κ μ} (h : (d.map Prod.fst).Nodup) (k : κ) (v : μ) : ((dictSet d k v).map Prod.fst).Nodup := by
  rw [keys_dictSet]
  split_ifs with hk
  · exact h
  · exact List.nodup_append.2 ⟨h, by simp, by rintro a ha b hb rfl; exact hk ((List.mem_singleton.1 hb) ▸ ha)⟩

theorem dictGet_dictSet (d : Dict κ (List ν)) (k k' : κ) (v : List ν) :
    dictGet (dictSet d k v) k' = if k' = k then v else dictGet d k' := by
  induction d with
  | nil =>
    simp only [dictSet, dictGet]
    split_ifs with h1 h2 h2
    · rfl
    · exact absurd h1.symm h2
    · exact absurd h2.symm h1
    · rfl
  | cons e d ih =>
    obtain ⟨k0, v0⟩ := e
    unfold dictSet
    by_cases h : k0 = k
    · subst h
      rw [if_pos rfl]
      simp only [dictGet]
      by_cases h' : k0 = k'
      · rw [if_pos h', if_pos h'.symm]
      · rw [if_neg h', if_neg (Ne.symm h'), if_neg h']
    · rw [if_neg h]
      simp only [dictGet]
      by_cases h' : k0 = k'
      · subst h'; rw [if_pos rfl, if_neg h, if_pos rfl]
      · rw [if_neg h', ih, if_neg h']

end

/-- State of the loop, phys_op_contraction.py:464-466. -/
structure BucketInv (G done : Dict (List Space × List (List (List Index))) (List Term)) (d : Buckets) : Prop where
  nodup : (d.map Prod.fst).Nodup
  keys : ∀ k, k ∈ d.map Prod.fst ↔ ∃ k2, (k, k2) ∈ G.map Prod.fst
  inner : ∀ k, ((dictGet d k).map Prod.fst).Nodup
  sub : ∀ k k2, k2 ∈ (dictGet d k).map Prod.fst → (k, k2) ∈ G.map Prod.fst
  done : ∀ e ∈ done, e.1.2 ∈ (dictGet d e.1.1).map Prod.fst ∧ sortTerms e.2 = .ok (dictGet (dictGet d e.1.1) e.1.2)

theorem bucket_init (G : Dict (List Space × List (List (List Index))) (List Term)) :
    BucketInv G [] (G.foldl (fun d e => dictSet d e.1.1 [(e.1.2, [])]) []) := by
  have key : ∀ (l : Dict (List Space × List (List (List Index))) (List Term)) (d : Buckets), (∀ e ∈ l, e ∈ G) →
      ((d.map Prod.fst).Nodup ∧ (∀ k, ((dictGet d k).map Prod.fst).Nodup) ∧
        (∀ k k2, k2 ∈ (dictGet d k).map Prod.fst → (k, k2) ∈ G.map Prod.fst) ∧ ∀ k ∈ d.map Prod.fst, ∃ k2, (k, k2) ∈ G.map Prod.fst) →
      let d' : Buckets := l.foldl (fun d e => dictSet d e.1.1 [(e.1.2, [])]) d
      ((d'.map Prod.fst).Nodup ∧ (∀ k, ((dictGet d' k).map Prod.fst).Nodup) ∧
        (∀ k k2, k2 ∈ (dictGet d' k).map Prod.fst → (k, k2) ∈ G.map Prod.fst) ∧ ∀ k ∈ d'.map Prod.fst, ∃ k2, (k, k2) ∈ G.map Prod.fst) ∧
      (∀ k ∈ d.map Prod.fst, k ∈ d'.map Prod.fst) ∧ ∀ e ∈ l, e.1.1 ∈ d'.map Prod.fst := by
    intro l
    induction l with
    | nil => intro d _ h; exact ⟨h, fun _ h => h, by simp⟩
    | cons e l ih =>
      intro d hl ⟨h1, h2, h3, h4⟩
      have hG : (e.1.1, e.1.2) ∈ G.map Prod.fst := List.mem_map.2 ⟨e, hl e (by simp), rfl⟩
      obtain ⟨i1, i2, i3⟩ := ih (dictSet d e.1.1 [(e.1.2, [])]) (fun x hx => hl x (List.mem_cons_of_mem _ hx))
        ⟨nodup_keys_dictSet h1 _ _, fun k => by rw [dictGet_dictSet]; split_ifs <;> [simp; exact h2 k],
          fun k k2 hk => by
            rw [dictGet_dictSet] at hk
            split_ifs at hk with hkk
            · have : k2 = e.1.2 := by simpa using hk
              rw [this, hkk]; exact hG
            · exact h3 k k2 hk,
          fun k hk => by
            rcases (mem_keys_dictSet _ _ _ _).1 hk with rfl | hk
            · exact ⟨_, hG⟩
            · exact h4 k hk⟩
      refine ⟨i1, fun k hk => i2 k ((mem_keys_dictSet _ _ _ _).2 (Or.inr hk)), ?_⟩
      intro x hx
      rcases List.mem_cons.1 hx with rfl | hx
      · exact i2 _ ((mem_keys_dictSet _ _ _ _).2 (Or.inl rfl))
      · exact i3 x hx
  obtain ⟨⟨h1, h2, h3, h4⟩, -, h5⟩ := key G [] (fun e h => h) ⟨by simp, by simp [dictGet], by simp [dictGet], by simp⟩
  refine ⟨h1, fun k => ⟨h4 k, ?_⟩, h2, h3, by simp⟩
  rintro ⟨k2, hk⟩
  obtain ⟨e, he, hk⟩ := List.mem_map.1 hk
  have := h5 e he
  rwa [hk] at this

theorem bucket_fold {G : Dict (List Space × List (List (List Index))) (List Term)} :
    ∀ (todo done : Dict (List Space × List (List (List Index))) (List Term)) (d d' : Buckets), (done ++ todo).map Prod.fst |>.Nodup →
      (∀ e ∈ todo, e ∈ G) → BucketInv G done d → todo.foldlM Buckets.store d = .ok d' → BucketInv G (done ++ todo) d' := by
  intro todo
  induction todo with
  | nil =>
    intro done d d' _ _ h hf
    have : d = d' := by injection hf
    rw [List.append_nil, ← this]; exact h
  | cons e todo ih =>
    intro done d d' hn hG h hf
    rw [List.foldlM_cons] at hf
    cases hs : sortTerms e.2 with
    | error er =>
      have : d.store e = .error er := by unfold Buckets.store; rw [hs]; rfl
      rw [this] at hf; cases hf
    | ok l =>
      have hst : d.store e = .ok (dictSet d e.1.1 (dictSet (d.inner e.1.1) e.1.2 l)) := by unfold Buckets.store; rw [hs]; rfl
      rw [hst] at hf
      have hk : (e.1.1, e.1.2) ∈ G.map Prod.fst := List.mem_map.2 ⟨e, hG e (by simp), rfl⟩
      have hnot : ∀ x ∈ done, x.1 ≠ e.1 := by
        intro x hx hxe
        rw [List.map_append, List.nodup_append] at hn
        exact hn.2.2 x.1 (List.mem_map_of_mem hx) e.1 (by simp) hxe
      have := ih (done ++ [e]) (dictSet d e.1.1 (dictSet (d.inner e.1.1) e.1.2 l)) d' (by simpa using hn)
        (fun x hx => hG x (List.mem_cons_of_mem _ hx)) ?_ hf
      · simpa using this
      · refine ⟨nodup_keys_dictSet h.nodup _ _, ?_, ?_, ?_, ?_⟩
        · intro k
          rw [mem_keys_dictSet, ← h.keys k]
          constructor
          · rintro (rfl | hk')
            · exact (h.keys _).2 ⟨_, hk⟩
            · exact hk'
          · exact Or.inr
        · intro k
          rw [dictGet_dictSet]
          split_ifs
          · exact nodup_keys_dictSet (h.inner e.1.1) _ _
          · exact h.inner k
        · intro k k2 hm
          rw [dictGet_dictSet] at hm
          split_ifs at hm with hkk
          · rcases (mem_keys_dictSet _ _ _ _).1 hm with rfl | hm
            · rw [hkk]; exact hk
            · rw [hkk]; exact h.sub e.1.1 k2 hm
          · exact h.sub k k2 hm
        · intro x hx
          rw [dictGet_dictSet]
          rcases List.mem_append.1 hx with hx | hx
          · obtain ⟨d1, d2⟩ := h.done x hx
            split_ifs with hkk
            · have hne : x.1.2 ≠ e.1.2 := fun h' => hnot x hx (Prod.ext hkk h')
              refine ⟨(mem_keys_dictSet _ _ _ _).2 (Or.inr (hkk ▸ d1)), ?_⟩
              rw [dictGet_dictSet, if_neg hne, d2, hkk]; rfl
            · exact ⟨d1, d2⟩
          · have : x = e := by simpa using hx
            subst this
            rw [if_pos rfl]
            refine ⟨(mem_keys_dictSet _ _ _ _).2 (Or.inl rfl), ?_⟩
            rw [dictGet_dictSet, if_pos rfl, hs]

theorem sortTerms_ok {terms l : List Term} (h : sortTerms terms = .ok l) : l.Perm terms ∧ l.Pairwise (fun x y => y.pyLt x = .ok false) := by
  unfold sortTerms at h
  split_ifs at h with hc
  injection h with h
  subst h
  refine ⟨sortedTerms_perm terms, ?_⟩
  refine (sortedTerms_sorted terms).imp_of_mem ?_
  intro x y hx hy hxy
  have ty : y.sqOp.upper.ty = x.sqOp.upper.ty := by
    by_contra hne
    apply hc
    rw [List.any_eq_true]
    refine ⟨y, (sortedTerms_perm terms).mem_iff.1 hy, ?_⟩
    rw [List.any_eq_true]
    exact ⟨x, (sortedTerms_perm terms).mem_iff.1 hx, decide_eq_true hne⟩
  simp [Term.pyLt, Term.checkOperand, IndicesPair.checkOperand, ty, hxy, bind, Except.bind, pure, Except.pure]

theorem sortTerms_total {terms : List Term} (ty : IType) (h : ∀ t ∈ terms, t.sqOp.upper.ty = ty) : ∃ l, sortTerms terms = .ok l := by
  unfold sortTerms
  rw [if_neg]
  · exact ⟨_, rfl⟩
  · intro hc
    rw [List.any_eq_true] at hc
    obtain ⟨x, hx, hc⟩ := hc
    rw [List.any_eq_true] at hc
    obtain ⟨y, hy, hc⟩ := hc
    rw [decide_eq_true_eq] at hc
    exact hc ((h x hx).trans (h y hy).symm)

theorem bucketEvents_ok {terms : List Term} {ev : List ((List Space × List (List (List Index))) × Term)} (h : bucketEvents terms = .ok ev) :
    ev.map Prod.snd = terms ∧ ∀ e ∈ ev, e.2.bucketKey = .ok e.1 := by
  induction terms generalizing ev with
  | nil =>
    have : ev = [] := by injection h with h; exact h.symm
    subst this; simp
  | cons t terms ih =>
    unfold bucketEvents at h
    rw [List.mapM_cons] at h
    cases hk : t.bucketKey with
    | error e => rw [hk] at h; cases h
    | ok k =>
      rw [hk] at h
      cases hr : bucketEvents terms with
      | error e =>
        unfold bucketEvents at hr
        rw [hr] at h; cases h
      | ok r =>
        obtain ⟨i1, i2⟩ := ih hr
        unfold bucketEvents at hr
        rw [hr] at h
        have : ev = (k, t) :: r := by injection h with h; exact h.symm
        subst this
        refine ⟨by simp [i1], ?_⟩
        intro e he
        rcases List.mem_cons.1 he with rfl | he
        · exact hk
        · exact i2 e he

theorem bucketEvents_total {terms : List Term} (h : ∀ t ∈ terms, ∃ k, t.bucketKey = .ok k) : ∃ ev, bucketEvents terms = .ok ev := by
  induction terms with
  | nil => exact ⟨[], rfl⟩
  | cons t terms ih =>
    obtain ⟨k, hk⟩ := h t (by simp)
    obtain ⟨ev, hev⟩ := ih fun x hx => h x (List.mem_cons_of_mem _ hx)
    refine ⟨(k, t) :: ev, ?_⟩
    unfold bucketEvents at hev ⊢
    rw [List.mapM_cons, hk, hev]; rfl

theorem events_filter {terms : List Term} {ev : List ((List Space × List (List (List Index))) × Term)}
    (h : ∀ e ∈ ev, e.2.bucketKey = .ok e.1) (hev : ev.map Prod.snd = terms) (k : List Space × List (List (List Index))) :
    (ev.filter fun e => decide (e.1 = k)).map Prod.snd = terms.filter fun t => decide (t.bucketKey = .ok k) := by
  subst hev
  rw [List.filter_map]
  congr 1
  refine List.filter_congr fun e he => ?_
  simp only [Function.comp_apply, h e he, Except.ok.injEq]

theorem categorize_spec {terms : List Term} {out : Buckets} (h : categorizeContractions terms = .ok out) :
    ∃ ev, bucketEvents terms = .ok ev ∧ BucketInv (dictCollect ev) (dictCollect ev) out := by
  unfold categorizeContractions at h
  cases hev : bucketEvents terms with
  | error e => rw [hev] at h; cases h
  | ok ev =>
    rw [hev] at h
    refine ⟨ev, rfl, ?_⟩
    exact bucket_fold (dictCollect ev) [] _ out (by simpa using nodup_keys_dictCollect ev) (fun e h => h) (bucket_init _) h

theorem store_total {todo : Dict (List Space × List (List (List Index))) (List Term)} (h : ∀ e ∈ todo, ∃ l, sortTerms e.2 = .ok l) (d : Buckets) :
    ∃ d', todo.foldlM Buckets.store d = .ok d' := by
  induction todo generalizing d with
  | nil => exact ⟨d, rfl⟩
  | cons e todo ih =>
    obtain ⟨l, hl⟩ := h e (by simp)
    have hst : d.store e = .ok (dictSet d e.1.1 (dictSet (d.inner e.1.1) e.1.2 l)) := by unfold Buckets.store; rw [hl]; rfl
    rw [List.foldlM_cons, hst]
    exact ih (fun x hx => h x (List.mem_cons_of_mem _ hx)) _

theorem latexSide (x : Indices) (ha : x.ty.isAntisym = true) (part : List (List Index)) (hp : part.flatten.Perm x.list) :
    ∃ n, x.nMultisetPermutation part = .ok n ∧ x.latexPermuteFormat part = .ok (n, if n = 1 then [] else [part]) := by
  obtain ⟨n, hn, -⟩ := C12_multinomial x ha part hp
  refine ⟨n, hn, ?_⟩
  have hv : x.isValidPartition part = .ok () := by
    unfold Indices.nMultisetPermutation at hn
    cases hv : x.isValidPartition part with
    | ok v => rfl
    | error e => rw [hv] at hn; cases hn
  unfold Indices.latexPermuteFormat
  simp only [hv, ha, hn, if_true, bind, Except.bind, pure, Except.pure]
  by_cases h1 : n = 1 <;> simp [h1]

end Dsrg
