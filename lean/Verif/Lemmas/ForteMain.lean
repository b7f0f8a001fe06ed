import Verif.Lemmas.Forte

/-!
Lemmas about the generated C++ functions.
-/

namespace Dsrg

/-! ### Names -/

theorem known_iff (nm : PyStr) : nm ∈ tensorOrdering.map Prod.fst ↔ KnownName nm := by
  unfold tensorOrdering KnownName
  simp only [List.map_append, List.map_map, List.mem_append, List.mem_map, Function.comp_def, List.mem_range'_1, List.mem_range]
  constructor
  · rintro ((⟨k, h, rfl⟩ | ⟨k, h, rfl⟩) | ⟨k, h, rfl⟩)
    · exact Or.inl ⟨k, by omega, by omega, Or.inl rfl⟩
    · exact Or.inl ⟨k, by omega, by omega, Or.inr rfl⟩
    · exact Or.inr ⟨k, by omega, rfl⟩
  · rintro (⟨k, h, h', rfl | rfl⟩ | ⟨k, h, rfl⟩)
    · exact Or.inl (Or.inl ⟨k, by omega, rfl⟩)
    · exact Or.inl (Or.inr ⟨k, by omega, rfl⟩)
    · exact Or.inr ⟨k, by omega, rfl⟩

theorem forteOrder_ok {x : PyStr} : (∃ n, forteOrder x = .ok n) ↔ x ∈ tensorOrdering.map Prod.fst := by
  unfold forteOrder
  cases h : tensorOrdering.find? (fun e => e.1 = x) with
  | none =>
    simp only [reduceCtorEq, exists_false, false_iff]
    rw [List.find?_eq_none] at h
    intro hm
    obtain ⟨e, he, rfl⟩ := List.mem_map.1 hm
    exact h e he (by simp)
  | some e =>
    simp only [Except.ok.injEq, exists_eq', true_iff]
    have := List.find?_some h
    exact List.mem_map.2 ⟨e, List.mem_of_find?_eq_some h, by simpa using this⟩

theorem forteOrder_error {x : PyStr} (h : x ∉ tensorOrdering.map Prod.fst) : forteOrder x = .error .keyError := by
  cases hx : forteOrder x with
  | ok n => exact absurd (forteOrder_ok.1 ⟨n, hx⟩) h
  | error e =>
    unfold forteOrder at hx
    split at hx
    · cases hx
    · exact hx.symm

theorem sortNames_total {l : List PyStr} (h : ∀ x ∈ l, x ∈ tensorOrdering.map Prod.fst) : ∃ r, sortNames l = .ok r := by
  obtain ⟨keyed, hk, -⟩ := mapM_exists (l := l.dedup) (f := fun x => (do pure (← forteOrder x, x) : Except PyErr (Nat × PyStr))) (P := fun _ _ => True)
    (by
      intro x hx
      obtain ⟨n, hn⟩ := forteOrder_ok.2 (h x (List.mem_dedup.1 hx))
      exact ⟨(n, x), by rw [hn]; rfl, trivial⟩)
  exact ⟨_, by unfold sortNames; rw [hk]; rfl⟩

theorem mapM_keyError {α β : Type} {f : α → Except PyErr β} {l : List α} (h : ∀ a ∈ l, ∀ e, f a = .error e → e = .keyError)
    (hb : ∃ a ∈ l, ∃ e, f a = .error e) : l.mapM f = .error .keyError := by
  induction l with
  | nil => obtain ⟨a, ha, -⟩ := hb; simp at ha
  | cons a l ih =>
    rw [List.mapM_cons]
    cases ha : f a with
    | error e => rw [h a (by simp) e ha]; rfl
    | ok b =>
      have := ih (fun x hx => h x (List.mem_cons_of_mem _ hx)) (by
        obtain ⟨x, hx, e, he⟩ := hb
        rcases List.mem_cons.1 hx with rfl | hx
        · rw [ha] at he; cases he
        · exact ⟨x, hx, e, he⟩)
      show (do let bs ← l.mapM f; pure (b :: bs) : Except PyErr (List β)) = _
      rw [this]; rfl

theorem sortNames_error {l : List PyStr} (h : ∃ x ∈ l, x ∉ tensorOrdering.map Prod.fst) : sortNames l = .error .keyError := by
  have : l.dedup.mapM (fun x => (do pure (← forteOrder x, x) : Except PyErr (Nat × PyStr))) = .error .keyError := by
    refine mapM_keyError ?_ ?_
    · intro x _ e he
      by_cases hx : x ∈ tensorOrdering.map Prod.fst
      · obtain ⟨n, hn⟩ := forteOrder_ok.2 hx; rw [hn] at he; cases he
      · rw [forteOrder_error hx] at he; injection he with he; exact he.symm
    · obtain ⟨x, hx, hn⟩ := h
      exact ⟨x, List.mem_dedup.2 hx, .keyError, by rw [forteOrder_error hn]; rfl⟩
  unfold sortNames
  rw [this]; rfl

theorem sortNames_ok {l r : List PyStr} (h : sortNames l = .ok r) :
    r.Nodup ∧ (∀ x, x ∈ r ↔ x ∈ l) ∧ ∀ x ∈ l, x ∈ tensorOrdering.map Prod.fst := by
  have hall : ∀ x ∈ l, x ∈ tensorOrdering.map Prod.fst := by
    intro x hx
    by_contra hc
    rw [sortNames_error ⟨x, hx, hc⟩] at h
    cases h
  unfold sortNames at h
  cases hk : l.dedup.mapM (fun x => do pure (← forteOrder x, x)) with
  | error e => rw [hk] at h; cases h
  | ok keyed =>
    rw [hk] at h
    injection h with h
    have hF := mapM_ok_forall₂.1 hk
    have hsnd : ∀ (a : List PyStr) (b : List (Nat × PyStr)),
        List.Forall₂ (fun x p => (do pure (← forteOrder x, x) : Except PyErr (Nat × PyStr)) = .ok p) a b → b.map Prod.snd = a := by
      intro a b hF
      induction hF with
      | nil => rfl
      | @cons x p _ _ hxp _ ih =>
        rw [List.map_cons, ih]
        congr 1
        cases hf : forteOrder x with
        | error e => rw [hf] at hxp; cases hxp
        | ok n => rw [hf] at hxp; injection hxp with hxp; rw [← hxp]
    have hp : r.Perm l.dedup := by
      rw [← h]
      refine ((List.perm_insertionSort _ keyed).map _).trans (List.Perm.of_eq (hsnd _ _ hF))
    exact ⟨hp.nodup_iff.2 (List.nodup_dedup l), fun x => by rw [hp.mem_iff, List.mem_dedup], hall⟩

theorem forteName_ok {x : Tensor} {nm : PyStr} : x.forteName = .ok nm ↔ x.upper.size = x.lower.size ∧ nm = x.arrayName := by
  unfold Tensor.forteName Tensor.arrayName
  by_cases h : x.upper.size = x.lower.size
  · simp [h, eq_comm]
  · simp [h]

theorem names_ok {l : List Tensor} {r : List PyStr} (h : l.mapM Tensor.forteName = .ok r) : r = l.map Tensor.arrayName := by
  induction l generalizing r with
  | nil => simp [pure, Except.pure] at h; simp [h]
  | cons x l ih =>
    obtain ⟨b, bs, h1, h2, rfl⟩ := mapM_cons_ok.1 h
    rw [(forteName_ok.1 h1).2, ih h2]; rfl

theorem names_total {l : List Tensor} (h : ∀ x ∈ l, x.upper.size = x.lower.size) : l.mapM Tensor.forteName = .ok (l.map Tensor.arrayName) := by
  induction l with
  | nil => rfl
  | cons x l ih =>
    exact mapM_cons_ok.2 ⟨_, _, forteName_ok.2 ⟨h x (by simp), rfl⟩, ih fun y hy => h y (List.mem_cons_of_mem _ hy), rfl⟩

/-! ### Mentioned arrays -/

theorem ambitTerms_mentions {terms : List Term} (hs : ∀ t ∈ terms, Shape t) :
    ∀ {init : Bool} {prog : List AmbitStmt}, ambitTerms init terms = .ok prog → ∀ st ∈ prog, ∀ nm ∈ st.mentions,
      (∃ t ∈ terms, nm = targetName ['C'] t.sqOp) ∨ (∃ t ∈ terms, ∃ x ∈ t.tensors, nm = x.arrayName) ∨
        nm = tempName ∧ ∃ t ∈ terms, t.nRows ≠ (1, 1) := by
  have one : ∀ t : Term, Shape t → ∀ ignore init prog, t.ambit ['C'] ignore init true = .ok prog → ∀ st ∈ prog, ∀ nm ∈ st.mentions,
      nm = targetName ['C'] t.sqOp ∨ (∃ x ∈ t.tensors, nm = x.arrayName) ∨ nm = tempName ∧ t.nRows ≠ (1, 1) := by
    intro t ht ignore init prog hp st hst nm hnm
    rw [ht.code ['C'] ignore init] at hp
    injection hp with hp
    have hfac : nm ∈ (t.tensors.map Tensor.arrayRef).map ArrayRef.name → ∃ x ∈ t.tensors, nm = x.arrayName := by
      intro h
      rw [List.map_map] at h
      obtain ⟨x, hx, rfl⟩ := List.mem_map.1 h
      exact ⟨x, hx, rfl⟩
    by_cases h1 : t.nRows = (1, 1)
    · rw [if_pos h1] at hp
      subst hp
      rw [List.mem_singleton] at hst
      subst hst
      rcases List.mem_cons.1 hnm with h | h
      · exact Or.inl h
      · exact Or.inr (Or.inl (hfac h))
    · rw [if_neg h1] at hp
      subst hp
      rcases List.mem_append.1 hst with hst | hst
      · rcases List.mem_append.1 hst with hst | hst
        · split_ifs at hst
          · rw [List.mem_singleton] at hst
            subst hst
            exact Or.inr (Or.inr ⟨List.mem_singleton.1 hnm, h1⟩)
          · simp at hst
        · rw [List.mem_singleton] at hst
          subst hst
          rcases List.mem_cons.1 hnm with h | h
          · exact Or.inr (Or.inr ⟨h, h1⟩)
          · exact Or.inr (Or.inl (hfac h))
      · split_ifs at hst
        · simp at hst
        · obtain ⟨r, -, rfl⟩ := List.mem_map.1 hst
          rcases List.mem_cons.1 hnm with h | h
          · exact Or.inl h
          · exact Or.inr (Or.inr ⟨by simpa using h, h1⟩)
  induction terms with
  | nil => intro init prog h; injection h with h; subst h; intro st hst; simp at hst
  | cons t rest ih =>
    intro init prog hp st hst nm hnm
    have up : nm = targetName ['C'] t.sqOp ∨ (∃ x ∈ t.tensors, nm = x.arrayName) ∨ nm = tempName ∧ t.nRows ≠ (1, 1) →
        (∃ u ∈ t :: rest, nm = targetName ['C'] u.sqOp) ∨ (∃ u ∈ t :: rest, ∃ x ∈ u.tensors, nm = x.arrayName) ∨
        nm = tempName ∧ ∃ u ∈ t :: rest, u.nRows ≠ (1, 1) := by
      rintro (h | ⟨x, hx, h⟩ | ⟨h, h'⟩)
      · exact Or.inl ⟨t, by simp, h⟩
      · exact Or.inr (Or.inl ⟨t, by simp, x, hx, h⟩)
      · exact Or.inr (Or.inr ⟨h, t, by simp, h'⟩)
    cases rest with
    | nil => exact up (one t (hs t (by simp)) false init prog hp st hst nm hnm)
    | cons t' rest =>
      rw [ambitTerms] at hp
      cases ha : t.ambit ['C'] true init true with
      | error e => rw [ha] at hp; cases hp
      | ok a =>
        cases hb : ambitTerms false (t' :: rest) with
        | error e => rw [ha, hb] at hp; cases hp
        | ok b =>
          rw [ha, hb] at hp
          injection hp with hp
          subst hp
          rcases List.mem_append.1 hst with hst | hst
          · exact up (one t (hs t (by simp)) true init a ha st hst nm hnm)
          · rcases ih (fun u hu => hs u (List.mem_cons_of_mem _ hu)) hb st hst nm hnm with ⟨u, hu, h⟩ | ⟨u, hu, x, hx, h⟩ | ⟨h, u, hu, h'⟩
            · exact Or.inl ⟨u, List.mem_cons_of_mem _ hu, h⟩
            · exact Or.inr (Or.inl ⟨u, List.mem_cons_of_mem _ hu, x, hx, h⟩)
            · exact Or.inr (Or.inr ⟨h, u, List.mem_cons_of_mem _ hu, h'⟩)

/-! ### Block functions -/

/-- The statements written for one bucket of a block function. -/
def bucketCode (sp : List Space) (initiate : Bool) (perms : List (List (List Index))) (code : List AmbitStmt) : List AmbitStmt :=
  if perms = [] then code else (if initiate then AmbitStmt.build sp else .zero) :: code

theorem blockBody_chunks (sp : List Space) (l : List (List (List (List Index)) × List Term)) :
    (∀ f ∈ l, ∃ prog, ambitTerms false f.2 = .ok prog) →
    ∀ init, ∃ chunks : List (List AmbitStmt), blockBody sp init l = .ok chunks.flatten ∧
      List.Forall₂ (fun f prog => ∃ i code, ambitTerms false f.2 = .ok code ∧ prog = bucketCode sp i f.1 code) l chunks := by
  induction l with
  | nil => exact fun _ _ => ⟨[], rfl, .nil⟩
  | cons f l ih =>
    intro h init
    obtain ⟨code, hc⟩ := h f (by simp)
    have ih := ih fun g hg => h g (List.mem_cons_of_mem _ hg)
    by_cases hp : f.1 = []
    · obtain ⟨chunks, h1, h2⟩ := ih init
      refine ⟨code :: chunks, ?_, .cons ⟨init, code, hc, by unfold bucketCode; rw [if_pos hp]⟩ h2⟩
      unfold blockBody
      simp only [hc, h1, hp, ne_eq, not_true_eq_false, if_false, bind, Except.bind, pure, Except.pure, List.flatten_cons]
    · obtain ⟨chunks, h1, h2⟩ := ih false
      refine ⟨bucketCode sp init f.1 code :: chunks, ?_, .cons ⟨init, code, hc, rfl⟩ h2⟩
      unfold blockBody
      simp only [hc, h1, hp, ne_eq, not_false_eq_true, if_true, bind, Except.bind, pure, Except.pure, List.flatten_cons]
      unfold bucketCode
      rw [if_neg hp]

theorem lookup_self (l : List PyStr) (nm : PyStr) : (l.zip l).lookup nm = if nm ∈ l then some nm else none := by
  induction l with
  | nil => simp
  | cons a l ih =>
    rw [List.zip_cons_cons, List.lookup_cons]
    by_cases h : nm = a
    · subst h; simp
    · have : (nm == a) = false := by simpa using h
      rw [this, ih]
      simp [h]

/-- Everything known about a block function. -/
structure BlockShape (e : List Space × List (List (List (List Index)) × List Term)) (f : BlockFunction) : Prop where
  target : f.target = 'C' :: natStr (e.1.length / 2)
  tensors : ∀ nm, nm ∈ f.tensors ↔ ∃ t ∈ e.2.flatMap Prod.snd, ∃ x ∈ t.tensors, nm = x.arrayName
  known : ∀ nm ∈ f.tensors, nm ∈ tensorOrdering.map Prod.fst
  nodup : f.tensors.Nodup
  temp : f.declaresTemp = e.2.any fun g => decide (g.1 ≠ [])
  body : blockBody e.1 true e.2 = .ok f.body

theorem blockFunction_ok {e : List Space × List (List (List (List Index)) × List Term)} {f : BlockFunction} (h : blockFunction e.1 e.2 = .ok f) :
    BlockShape e f := by
  unfold blockFunction at h
  cases h1 : (e.2.flatMap fun g => g.2.flatMap Term.tensors).mapM Tensor.forteName with
  | error er => rw [h1] at h; cases h
  | ok names =>
    cases h2 : blockBody e.1 true e.2 with
    | error er => rw [h1, h2] at h; cases h
    | ok body =>
      cases h3 : sortNames names with
      | error er => simp only [h1, h2, h3, bind, Except.bind] at h; cases h
      | ok tensors =>
        simp only [h1, h2, h3, bind, Except.bind, pure, Except.pure] at h
        injection h with h
        subst h
        obtain ⟨s1, s2, s3⟩ := sortNames_ok h3
        refine ⟨rfl, fun nm => ?_, fun nm hnm => s3 nm ((s2 nm).1 hnm), s1, rfl, h2⟩
        show nm ∈ tensors ↔ _
        rw [s2, names_ok h1]
        simp only [List.mem_map, List.mem_flatMap]
        constructor
        · rintro ⟨x, ⟨g, hg, t, ht, hx⟩, rfl⟩
          exact ⟨t, ⟨g, hg, ht⟩, x, hx, rfl⟩
        · rintro ⟨t, ⟨g, hg, ht⟩, x, hx, rfl⟩
          exact ⟨x, ⟨g, hg, t, ht, hx⟩, rfl⟩

theorem blockFunction_total {e : List Space × List (List (List (List Index)) × List Term)}
    (hb : ∀ t ∈ e.2.flatMap Prod.snd, ∀ x ∈ t.tensors, x.upper.size = x.lower.size)
    (hc : ∀ f ∈ e.2, ∃ prog, ambitTerms false f.2 = .ok prog) :
    (∃ f, blockFunction e.1 e.2 = .ok f) ∧ (∀ t ∈ e.2.flatMap Prod.snd, ∀ x ∈ t.tensors, x.arrayName ∈ tensorOrdering.map Prod.fst) ∨
      blockFunction e.1 e.2 = .error .keyError ∧ ∃ t ∈ e.2.flatMap Prod.snd, ∃ x ∈ t.tensors, x.arrayName ∉ tensorOrdering.map Prod.fst := by
  have h1 := names_total (l := e.2.flatMap fun g => g.2.flatMap Term.tensors) (by
    intro x hx
    simp only [List.mem_flatMap] at hx
    obtain ⟨g, hg, t, ht, hx⟩ := hx
    exact hb t (List.mem_flatMap.2 ⟨g, hg, ht⟩) x hx)
  obtain ⟨chunks, h2, -⟩ := blockBody_chunks e.1 e.2 hc true
  by_cases hk : ∀ t ∈ e.2.flatMap Prod.snd, ∀ x ∈ t.tensors, x.arrayName ∈ tensorOrdering.map Prod.fst
  · left
    refine ⟨?_, hk⟩
    obtain ⟨r, h3⟩ := sortNames_total (l := (e.2.flatMap fun g => g.2.flatMap Term.tensors).map Tensor.arrayName) (by
      intro nm hnm
      obtain ⟨x, hx, rfl⟩ := List.mem_map.1 hnm
      simp only [List.mem_flatMap] at hx
      obtain ⟨g, hg, t, ht, hx⟩ := hx
      exact hk t (List.mem_flatMap.2 ⟨g, hg, ht⟩) x hx)
    unfold blockFunction
    simp only [h1, h2, h3, bind, Except.bind, pure, Except.pure]
    exact ⟨_, rfl⟩
  · right
    push Not at hk
    refine ⟨?_, hk⟩
    obtain ⟨t, ht, x, hx, hn⟩ := hk
    have h3 := sortNames_error (l := (e.2.flatMap fun g => g.2.flatMap Term.tensors).map Tensor.arrayName) ⟨x.arrayName, by
      obtain ⟨g, hg, ht⟩ := List.mem_flatMap.1 ht
      exact List.mem_map_of_mem (List.mem_flatMap.2 ⟨g, hg, List.mem_flatMap.2 ⟨t, ht, hx⟩⟩), hn⟩
    unfold blockFunction
    simp only [h1, h2, h3, bind, Except.bind]

/-- A block function mentions only its parameters and the local array it declares. -/
theorem blockFunction_closed {e : List Space × List (List (List (List Index)) × List Term)} {f : BlockFunction} (hf : BlockShape e f)
    (hs : ∀ g ∈ e.2, ∀ t ∈ g.2, Shape t ∧ t.bucketKey = .ok (e.1, g.1)) (hc : ∀ g ∈ e.2, ∃ prog, ambitTerms false g.2 = .ok prog) : f.Closed := by
  obtain ⟨chunks, h1, h2⟩ := blockBody_chunks e.1 e.2 hc true
  rw [hf.body] at h1
  injection h1 with h1
  intro st hst nm hnm
  rw [h1, List.mem_flatten] at hst
  obtain ⟨c, hcm, hst⟩ := hst
  obtain ⟨g, hg, i, code, hcode, rfl⟩ : ∃ g ∈ e.2, ∃ i code, ambitTerms false g.2 = .ok code ∧ c = bucketCode e.1 i g.1 code := by
    obtain ⟨k, hk, rfl⟩ := List.getElem_of_mem hcm
    have hk' : k < e.2.length := by rw [h2.length_eq]; exact hk
    exact ⟨e.2[k], List.getElem_mem hk', (List.forall₂_iff_get.1 h2).2 k hk' hk⟩
  have htemp : g.1 ≠ [] → f.declaresTemp = true := by
    intro h
    rw [hf.temp, List.any_eq_true]
    exact ⟨g, hg, by simpa using h⟩
  have main : st ∈ code → nm ∈ f.tensors ∨ nm = f.target ∨ nm = tempName ∧ f.declaresTemp = true := by
    intro hst
    rcases ambitTerms_mentions (fun t ht => (hs g hg t ht).1) hcode st hst nm hnm with ⟨t, ht, h⟩ | ⟨t, ht, x, hx, h⟩ | ⟨h, t, ht, h'⟩
    · right; left
      obtain ⟨s1, s2⟩ := hs g hg t ht
      rw [h, hf.target, s1.target s2]; rfl
    · left
      exact (hf.tensors nm).2 ⟨t, List.mem_flatMap.2 ⟨g, hg, ht⟩, x, hx, h⟩
    · right; right
      obtain ⟨s1, s2⟩ := hs g hg t ht
      exact ⟨h, htemp fun h0 => h' ((s1.perms_nil s2).1 h0)⟩
  unfold bucketCode at hst
  by_cases hp : g.1 = []
  · rw [if_pos hp] at hst; exact main hst
  · rw [if_neg hp] at hst
    rcases List.mem_cons.1 hst with h | h
    · right; right
      refine ⟨?_, htemp hp⟩
      subst h
      cases i <;> simpa [AmbitStmt.mentions] using hnm
    · exact main h

section
variable {O R M : Type} [Fintype O] [DecidableEq O] [Inhabited O] [CommRing R] [Algebra ℚ R] [AddCommGroup M] [Module R M]

theorem callFunction_self (orb : Orbitals O) (l : List PyStr) (body : List AmbitStmt) (s : Store O R) (nm : PyStr) :
    callFunction orb l l body s nm = if nm ∈ l then runCode orb (fun p => if p ∈ l then s p else fun _ => 0) body nm else s nm := by
  have e : localStore l l s = fun p => if p ∈ l then s p else fun _ => 0 := by
    funext p
    unfold localStore
    rw [lookup_self]
    by_cases h : p ∈ l <;> simp [h]
  unfold callFunction
  rw [lookup_self, e]
  by_cases h : nm ∈ l <;> simp [h]

/-- The statements of a block. -/
theorem blockBody_adds (orb : Orbitals O) {I : Interp O R M} (hI : I.Antisymmetric) (hH : I.Hermitian) {terms : List Term}
    (hp : ∀ t ∈ terms, Printable t) (hx : ∀ t ∈ terms, ∀ x ∈ t.tensors, ∀ n, x.arrayName ≠ 'C' :: natStr n) {b : Buckets}
    (hb : categorizeContractions terms = .ok b) {e : List Space × List (List (List (List Index)) × List Term)} (he : e ∈ b) (sp : List Space)
    (init : Bool) : ∃ body, blockBody sp init e.2 = .ok body ∧
      Adds orb I (GoodTerms terms) (e.1.length / 2) (e.2.flatMap Prod.snd) fun s : Store O R => runCode orb s body := by
  have hflat : ∀ g ∈ e.2, ((e.1, g.1), g.2) ∈ b.flat := fun g hg => Buckets.mem_flat.2 ⟨e, he, g, hg, rfl⟩
  have hmem : ∀ g ∈ e.2, ∀ t ∈ g.2, t ∈ terms := fun g hg t ht => (((categorize_flat hb).2 _ (hflat g hg)).2 t ht).1
  obtain ⟨chunks, h1, h2⟩ := blockBody_chunks sp e.2 (fun g hg => by
    obtain ⟨-, prog, hpr, -⟩ := bucket_adds (R := R) orb hI hH hp hx hb (hflat g hg)
    exact ⟨prog, hpr⟩) init
  refine ⟨_, h1, ?_⟩
  have hF : List.Forall₂ (fun g prog => Adds orb I (GoodTerms terms) (e.1.length / 2) g.2 fun s : Store O R => runCode orb s prog) e.2 chunks := by
    rw [List.forall₂_iff_get] at h2 ⊢
    refine ⟨h2.1, fun i hi hi' => ?_⟩
    obtain ⟨j, code, hc, hbc⟩ := h2.2 i hi hi'
    obtain ⟨-, prog, hpr, a1, a2, a3⟩ := bucket_adds (R := R) orb hI hH hp hx hb (hflat _ (List.get_mem e.2 ⟨i, hi⟩))
    have : prog = code := by rw [hpr] at hc; injection hc
    subst this
    rw [hbc]
    unfold bucketCode
    split_ifs with h3 h4
    · exact a1 h3
    · exact a2 sp
    · exact a3
  have hlen := hF.length_eq
  have hadd := adds_same orb (I := I) (good := GoodTerms terms) (e.1.length / 2) ((e.2.zip chunks).map fun x =>
      (x.1.2, fun s : Store O R => runCode orb s x.2)) (by
    intro c hc
    obtain ⟨x, hxm, rfl⟩ := List.mem_map.1 hc
    exact List.forall₂_zip hF hxm) (by
    intro c hc t ht
    obtain ⟨x, hxm, rfl⟩ := List.mem_map.1 hc
    exact hx t (hmem x.1 (List.of_mem_zip hxm).1 t ht))
  have eterms : ((e.2.zip chunks).map fun x => (x.1.2, fun s : Store O R => runCode orb s x.2)).flatMap Prod.fst = e.2.flatMap Prod.snd := by
    rw [List.flatMap_map]
    conv_rhs => rw [← List.map_fst_zip (l₁ := e.2) (l₂ := chunks) (by omega), List.flatMap_map]
  have efold : ∀ s : Store O R, ((e.2.zip chunks).map fun x => (x.1.2, fun s : Store O R => runCode orb s x.2)).foldl (fun s c => c.2 s) s =
      runCode orb s chunks.flatten := by
    intro s
    rw [runCode_chunks, List.foldl_map]
    conv_rhs => rw [← List.map_snd_zip (l₁ := e.2) (l₂ := chunks) (by omega), List.foldl_map]
  simp only [eterms, efold] at hadd
  exact hadd

/-- A call of a block function. -/
theorem call_adds (orb : Orbitals O) {I : Interp O R M} (hI : I.Antisymmetric) (hH : I.Hermitian) {terms : List Term}
    (hp : ∀ t ∈ terms, Printable t) (hx : ∀ t ∈ terms, ∀ x ∈ t.tensors, ∀ n, x.arrayName ≠ 'C' :: natStr n) {b : Buckets}
    (hb : categorizeContractions terms = .ok b) {e : List Space × List (List (List (List Index)) × List Term)} (he : e ∈ b)
    {f : BlockFunction} (hf : BlockShape e f) :
    Adds orb I (GoodTerms terms) (e.1.length / 2) (e.2.flatMap Prod.snd) fun s : Store O R =>
      callFunction orb (f.tensors ++ [f.target]) (f.tensors ++ [f.target]) f.body s := by
  obtain ⟨body, h1, hadd⟩ := blockBody_adds (R := R) orb hI hH hp hx hb he e.1 true
  rw [hf.body] at h1
  injection h1 with h1
  subst h1
  intro s ha
  have hloc : ∀ t ∈ e.2.flatMap Prod.snd, ArraysHold (fun p => if p ∈ f.tensors ++ [f.target] then s p else fun _ => 0) I t.tensors := by
    intro t ht
    refine (ha t ht).of_eq fun x hx' => ?_
    have : x.arrayName ∈ f.tensors ++ [f.target] := List.mem_append_left _ ((hf.tensors _).2 ⟨t, ht, x, hx', rfl⟩)
    simp only [this, if_true]
  obtain ⟨r1, r2, r3⟩ := hadd _ hloc
  have ht : ('C' :: natStr (e.1.length / 2) : PyStr) ∈ f.tensors ++ [f.target] := by rw [hf.target]; simp
  simp only [ht, if_true] at r1 r2
  simp only [callFunction_self, ht, if_true]
  refine ⟨r1, r2, fun nm n1 n2 => ?_⟩
  by_cases h : nm ∈ f.tensors ++ [f.target]
  · have := r3 nm n1 n2
    simp only [h, if_true] at this
    rw [if_pos h]
    exact this
  · rw [if_neg h]

/-! ### The main function -/

/-- Everything known about the main function. -/
theorem forteMain_ok {terms : List Term} {dag destroyH : Bool} {f : MainFunction} (h : forteMain terms dag destroyH = .ok f) :
    ∃ (b : Buckets) (funcs : List BlockFunction) (ranks : List Nat), categorizeContractions terms = .ok b ∧
      List.Forall₂ (fun e g => blockFunction e.1 e.2 = .ok g) b funcs ∧
      ranks = ((b.map fun e => e.1.length / 2).dedup).insertionSort (· ≤ ·) ∧
      (∀ nm, nm ∈ f.params ↔ (∃ g ∈ funcs, nm ∈ g.tensors) ∨ ∃ n ∈ ranks, nm = 'C' :: natStr n) ∧
      (∀ n ∈ ranks, ('C' :: natStr n : PyStr) ∈ tensorOrdering.map Prod.fst) ∧
      f.body = ranks.map (fun n => MainStmt.zero ('C' :: natStr n)) ++ funcs.map (fun g => MainStmt.call g (g.tensors ++ [g.target])) ++
        (if dag then ranks.flatMap (transposeCode (destroyH && !(ranks.any fun n => decide (n ≠ 0) &&
          !decide (('H' :: natStr n) ∈ funcs.flatMap BlockFunction.tensors)))) else []) := by
  unfold forteMain at h
  cases h1 : categorizeContractions terms with
  | error er => rw [h1] at h; cases h
  | ok b =>
    cases h2 : b.mapM (fun e => blockFunction e.1 e.2) with
    | error er => rw [h1] at h; simp only [h2, bind, Except.bind] at h; cases h
    | ok funcs =>
      rw [h1] at h
      simp only [h2, bind, Except.bind] at h
      cases h3 : sortNames (funcs.flatMap BlockFunction.tensors) with
      | error er => rw [h3] at h; cases h
      | ok tensors =>
        rw [h3] at h
        simp only at h
        cases h4 : sortNames ((((b.map fun e => e.1.length / 2).dedup).insertionSort (· ≤ ·)).map fun n => 'C' :: natStr n) with
        | error er => rw [h4] at h; cases h
        | ok targets =>
          rw [h4] at h
          simp only [pure, Except.pure] at h
          injection h with h
          subst h
          obtain ⟨-, s2, -⟩ := sortNames_ok h3
          obtain ⟨-, t2, t3⟩ := sortNames_ok h4
          refine ⟨b, funcs, _, rfl, mapM_ok_forall₂.1 h2, rfl, fun nm => ?_, fun n hn => t3 _ (List.mem_map_of_mem hn), rfl⟩
          show nm ∈ tensors ++ targets ↔ _
          rw [List.mem_append, s2, t2, List.mem_flatMap, List.mem_map]
          constructor
          · rintro (h | ⟨n, hn, rfl⟩)
            · exact Or.inl h
            · exact Or.inr ⟨n, hn, rfl⟩
          · rintro (h | ⟨n, hn, rfl⟩)
            · exact Or.inl h
            · exact Or.inr ⟨n, hn, rfl⟩

/-- The state after the arrays are set to zero. -/
theorem run_zeros (orb : Orbitals O) (factor : R) (ranks : List Nat) (s : Store O R) (nm : PyStr) :
    (ranks.map fun n => MainStmt.zero ('C' :: natStr n)).foldl (MainStmt.exec orb factor) s nm =
      if ∃ n ∈ ranks, nm = 'C' :: natStr n then 0 else s nm := by
  induction ranks generalizing s with
  | nil => simp
  | cons n ranks ih =>
    rw [List.map_cons, List.foldl_cons, ih]
    show (if _ then _ else Function.update s _ _ nm) = _
    by_cases h : ∃ m ∈ ranks, nm = 'C' :: natStr m
    · rw [if_pos h, if_pos]
      obtain ⟨m, hm, he⟩ := h
      exact ⟨m, List.mem_cons_of_mem _ hm, he⟩
    · rw [if_neg h]
      by_cases h' : nm = 'C' :: natStr n
      · rw [if_pos ⟨n, by simp, h'⟩, h', Function.update_self]
      · rw [Function.update_of_ne h', if_neg]
        rintro ⟨m, hm, he⟩
        rcases List.mem_cons.1 hm with rfl | hm
        · exact h' he
        · exact h ⟨m, hm, he⟩

theorem flat_map_sum {μ : Type} [AddCommMonoid μ] (b : Buckets) (f : Term → μ) (n : Nat) :
    (b.map fun e => if e.1.length / 2 = n then ((e.2.flatMap Prod.snd).map f).sum else 0).sum =
      (b.flat.map fun x => if x.1.1.length / 2 = n then (x.2.map f).sum else 0).sum := by
  unfold Buckets.flat
  induction b with
  | nil => rfl
  | cons e b ih =>
    rw [List.map_cons, List.sum_cons, ih, List.flatMap_cons, List.map_append, List.sum_append]
    congr 1
    rw [List.map_map]
    by_cases h : e.1.length / 2 = n
    · simp only [Function.comp_def, h, if_true]
      rw [List.map_flatMap]
      induction e.2 with
      | nil => rfl
      | cons g l ih2 => rw [List.flatMap_cons, List.sum_append, List.map_cons, List.sum_cons, ih2]
    · simp only [Function.comp_def, h, if_false]
      symm
      exact List.sum_eq_zero fun v hv => by obtain ⟨g, -, rfl⟩ := List.mem_map.1 hv; rfl

/-- The main function without the transposes. -/
theorem main_effect (orb : Orbitals O) {I : Interp O R M} (hI : I.Antisymmetric) (hH : I.Hermitian) {terms : List Term}
    (hp : ∀ t ∈ terms, Printable t) (hx : ∀ t ∈ terms, ∀ x ∈ t.tensors, ∀ n, x.arrayName ≠ 'C' :: natStr n) {destroyH : Bool}
    {f : MainFunction} (hf : forteMain terms false destroyH = .ok f) (factor : R) (s : Store O R) (hs : ∀ t ∈ terms, ArraysHold s I t.tensors) :
    (∀ n, (∃ t ∈ terms, t.sqOp.lower.list.length = n) →
      I.operator n n (f.run orb factor s ('C' :: natStr n)) =
        ((terms.filter fun t => decide (t.sqOp.lower.list.length = n)).map fun t => t.amplitudes orb I).sum ∧
      (GoodTerms terms → AntisymmetricArray orb n n (f.run orb factor s ('C' :: natStr n)))) ∧
    ∀ nm, (∀ t ∈ terms, nm ≠ 'C' :: natStr t.sqOp.lower.list.length) → nm ≠ tempName → f.run orb factor s nm = s nm := by
  obtain ⟨b, funcs, ranks, hb, hF, hr, -, -, hbody⟩ := forteMain_ok hf
  have hlen := hF.length_eq
  have hmem : ∀ e ∈ b, ∀ t ∈ e.2.flatMap Prod.snd, t ∈ terms ∧ t.sqOp.lower.list.length = e.1.length / 2 := by
    intro e he t ht
    obtain ⟨g, hg, ht⟩ := List.mem_flatMap.1 ht
    obtain ⟨h1, h2⟩ := ((categorize_flat hb).2 _ (Buckets.mem_flat.2 ⟨e, he, g, hg, rfl⟩)).2 t ht
    exact ⟨h1, ((hp t h1).shape.lengths h2).1⟩
  have hranks : ∀ n, n ∈ ranks ↔ ∃ t ∈ terms, t.sqOp.lower.list.length = n := by
    intro n
    rw [hr, (List.perm_insertionSort _ _).mem_iff, List.mem_dedup, List.mem_map]
    constructor
    · rintro ⟨e, he, rfl⟩
      obtain ⟨-, -, p3, -⟩ := C58_partition terms b hb
      obtain ⟨g, hg⟩ := List.exists_mem_of_ne_nil _ (p3 e he).1
      obtain ⟨t, ht⟩ := List.exists_mem_of_ne_nil _ ((p3 e he).2 g hg).1
      obtain ⟨h1, h2⟩ := hmem e he t (List.mem_flatMap.2 ⟨g, hg, ht⟩)
      exact ⟨t, h1, h2⟩
    · rintro ⟨t, ht, rfl⟩
      obtain ⟨-, -, -, p4⟩ := C58_partition terms b hb
      obtain ⟨e, he, g, hg, -, htg⟩ := p4 t ht
      exact ⟨e, he, (hmem e he t (List.mem_flatMap.2 ⟨g, hg, htg⟩)).2.symm⟩
  set s0 : Store O R := (ranks.map fun n => MainStmt.zero ('C' :: natStr n)).foldl (MainStmt.exec orb factor) s with hs0
  have e0 : ∀ nm, s0 nm = if ∃ n ∈ ranks, nm = 'C' :: natStr n then 0 else s nm := run_zeros orb factor ranks s
  have hold0 : ∀ t ∈ terms, ArraysHold s0 I t.tensors := by
    intro t ht
    refine (hs t ht).of_eq fun x hx' => ?_
    rw [e0, if_neg]
    rintro ⟨n, -, h⟩
    exact hx t ht x hx' n h
  obtain ⟨a1, a2, a3⟩ := adds_all orb (I := I) (good := GoodTerms terms) ((b.zip funcs).map fun x =>
      (x.1.1.length / 2, x.1.2.flatMap Prod.snd, fun s : Store O R => callFunction orb (x.2.tensors ++ [x.2.target]) (x.2.tensors ++ [x.2.target]) x.2.body s)) (by
    intro c hc
    obtain ⟨x, hxm, rfl⟩ := List.mem_map.1 hc
    exact call_adds orb hI hH hp hx hb (List.of_mem_zip hxm).1 (blockFunction_ok (List.forall₂_zip hF hxm))) (by
    intro c hc t ht
    obtain ⟨x, hxm, rfl⟩ := List.mem_map.1 hc
    exact hx t (hmem x.1 (List.of_mem_zip hxm).1 t ht).1) s0 (by
    intro c hc t ht
    obtain ⟨x, hxm, rfl⟩ := List.mem_map.1 hc
    exact hold0 t (hmem x.1 (List.of_mem_zip hxm).1 t ht).1)
  have efold : ((b.zip funcs).map fun x =>
      (x.1.1.length / 2, x.1.2.flatMap Prod.snd, fun s : Store O R => callFunction orb (x.2.tensors ++ [x.2.target]) (x.2.tensors ++ [x.2.target]) x.2.body s)).foldl
      (fun s c => c.2.2 s) s0 = f.run orb factor s := by
    unfold MainFunction.run
    rw [hbody]
    simp only [Bool.false_eq_true, if_false, List.append_nil, List.foldl_append]
    rw [← hs0, List.foldl_map, List.foldl_map]
    conv_rhs => rw [← List.map_snd_zip (l₁ := b) (l₂ := funcs) (by omega), List.foldl_map]
    rfl
  rw [efold] at a1 a2 a3
  have hz : ∀ n, (∃ t ∈ terms, t.sqOp.lower.list.length = n) → (fun os => f.run orb factor s ('C' :: natStr n) os - s0 ('C' :: natStr n) os) =
      f.run orb factor s ('C' :: natStr n) := by
    intro n hn
    funext os
    rw [e0, if_pos ⟨n, (hranks n).2 hn, rfl⟩]
    exact sub_zero _
  refine ⟨fun n hn => ⟨?_, fun hg => ?_⟩, fun nm n1 n2 => ?_⟩
  · rw [← hz n hn, a1 n, ← adds_terms orb hp hb n, ← flat_map_sum, List.map_map]
    conv_rhs => rw [← List.map_fst_zip (l₁ := b) (l₂ := funcs) (by omega), List.map_map]
    rfl
  · rw [← hz n hn]; exact a2 hg n
  · rw [a3 nm ?_ n2, e0, if_neg]
    · rintro ⟨n, hn, rfl⟩
      obtain ⟨t, ht, rfl⟩ := (hranks n).1 hn
      exact n1 t ht rfl
    · intro c hc he
      obtain ⟨x, hxm, rfl⟩ := List.mem_map.1 hc
      have hxb := (List.of_mem_zip hxm).1
      obtain ⟨t, ht, h⟩ := (hranks (x.1.1.length / 2)).1 (by
        rw [hr, (List.perm_insertionSort _ _).mem_iff, List.mem_dedup]
        exact List.mem_map_of_mem (f := fun e : List Space × List (List (List (List Index)) × List Term) => e.1.length / 2) hxb)
      exact n1 t ht (by rw [h]; exact he)

/-! ### Transposes -/

theorem isGeneral_swap {orb : Orbitals O} {n : Nat} {os : List O} (h : IsGeneral orb n os) : IsGeneral orb n (os.drop n ++ os.take n) := by
  obtain ⟨h1, h2⟩ := h
  refine ⟨by simp; omega, fun o ho => h2 o ?_⟩
  rcases List.mem_append.1 ho with h | h
  · exact List.mem_of_mem_drop h
  · exact List.mem_of_mem_take h

theorem hName_ne (m n : Nat) : ('H' :: natStr m : PyStr) ≠ 'C' :: natStr n := by
  intro h; injection h with h; exact absurd h (by decide)

/-- What the statements for one target do. -/
theorem run_transpose (orb : Orbitals O) (factor : R) (destroy : Bool) (n : Nat) (s : Store O R) :
    (∀ os, (transposeCode destroy n).foldl (MainStmt.exec orb factor) s ('C' :: natStr n) os =
      if n = 0 then 2 * s ('C' :: natStr n) os
      else if IsGeneral orb n os then s ('C' :: natStr n) os + s ('C' :: natStr n) (os.drop n ++ os.take n) else s ('C' :: natStr n) os) ∧
    ∀ nm, nm ≠ 'C' :: natStr n → nm ≠ tempName → (destroy = true → n ≠ 0 → nm ≠ 'H' :: natStr n) →
      (transposeCode destroy n).foldl (MainStmt.exec orb factor) s nm = s nm := by
  unfold transposeCode
  by_cases h0 : n = 0
  · subst h0
    cases destroy
    · refine ⟨fun os => ?_, fun nm n1 _ _ => ?_⟩
      · show Function.update s _ _ _ os = _
        rw [Function.update_self]; rfl
      · show Function.update s _ _ nm = _
        rw [Function.update_of_ne n1]
    · refine ⟨fun os => ?_, fun nm n1 _ _ => ?_⟩
      · show Function.update s _ _ _ os = _
        rw [Function.update_self]; rfl
      · show Function.update s _ _ nm = _
        rw [Function.update_of_ne n1]
  · have hT : tempName ≠ ('C' :: natStr n : PyStr) := (append_natStr_ne ['C'] n).symm
    have hH := hName_ne n n
    cases destroy
    · simp only [h0, if_false, Bool.false_eq_true, List.foldl_cons, List.foldl_nil, MainStmt.exec]
      refine ⟨fun os => ?_, fun nm n1 n2 _ => ?_⟩
      · simp only [Function.update_self, Function.update_of_ne hT.symm]
        by_cases hg : IsGeneral orb n os
        · rw [if_pos hg, if_pos hg, if_pos (isGeneral_swap hg)]
        · rw [if_neg hg, if_neg hg]
      · simp only [Function.update_of_ne n1, Function.update_of_ne n2]
    · simp only [h0, if_false, if_true, List.foldl_cons, List.foldl_nil, MainStmt.exec]
      refine ⟨fun os => ?_, fun nm n1 n2 n3 => ?_⟩
      · simp only [Function.update_self, Function.update_of_ne hH.symm]
        by_cases hg : IsGeneral orb n os
        · rw [if_pos hg, if_pos hg, if_pos (isGeneral_swap hg)]
        · rw [if_neg hg, if_neg hg]
      · have n3 := n3 trivial h0
        simp only [Function.update_of_ne n1, Function.update_of_ne n3]

theorem run_transposes (orb : Orbitals O) (factor : R) (destroy : Bool) (ranks : List Nat) (hn : ranks.Nodup) (s : Store O R) :
    (∀ n ∈ ranks, ∀ os, (ranks.flatMap (transposeCode destroy)).foldl (MainStmt.exec orb factor) s ('C' :: natStr n) os =
      if n = 0 then 2 * s ('C' :: natStr n) os
      else if IsGeneral orb n os then s ('C' :: natStr n) os + s ('C' :: natStr n) (os.drop n ++ os.take n) else s ('C' :: natStr n) os) ∧
    ∀ nm, (∀ n ∈ ranks, nm ≠ 'C' :: natStr n) → nm ≠ tempName → (destroy = true → ∀ n ∈ ranks, n ≠ 0 → nm ≠ 'H' :: natStr n) →
      (ranks.flatMap (transposeCode destroy)).foldl (MainStmt.exec orb factor) s nm = s nm := by
  induction ranks generalizing s with
  | nil => exact ⟨by simp, fun _ _ _ _ => rfl⟩
  | cons m ranks ih =>
    rw [List.nodup_cons] at hn
    rw [List.flatMap_cons, List.foldl_append]
    obtain ⟨a1, a2⟩ := run_transpose orb factor destroy m s
    obtain ⟨b1, b2⟩ := ih hn.2 ((transposeCode destroy m).foldl (MainStmt.exec orb factor) s)
    refine ⟨fun n hnm os => ?_, fun nm n1 n2 n3 => ?_⟩
    · by_cases h : n = m
      · subst h
        rw [b2 _ (fun k hk => targets_ne (m := n) (n := k) fun he => hn.1 (by rw [he]; exact hk)) (append_natStr_ne ['C'] n) (fun _ k _ _ => (hName_ne k n).symm), a1 os]
      · have hk : n ∈ ranks := (List.mem_cons.1 hnm).resolve_left h
        rw [b1 n hk os, a2 _ (targets_ne h) (append_natStr_ne ['C'] n) (fun _ _ => (hName_ne m n).symm)]
    · rw [b2 nm (fun k hk => n1 k (List.mem_cons_of_mem _ hk)) n2 (fun hd k hk => n3 hd k (List.mem_cons_of_mem _ hk)),
        a2 nm (n1 m (by simp)) n2 (fun hd h0 => n3 hd m (by simp) h0)]

end

/-! ### Declarations -/

theorem declared_mono {env env' : List PyStr} (h : ∀ nm ∈ env, nm ∈ env') : ∀ {l : List MainStmt}, DeclaredBeforeUse env l → DeclaredBeforeUse env' l := by
  intro l
  induction l generalizing env env' with
  | nil => exact fun _ => trivial
  | cons st l ih =>
    cases st with
    | declareTemp =>
      intro hd
      refine ih (env := tempName :: env) (env' := tempName :: env') ?_ hd
      intro nm hnm
      rcases List.mem_cons.1 hnm with rfl | hnm
      · simp
      · exact List.mem_cons_of_mem _ (h nm hnm)
    | _ => exact fun hd => ⟨fun nm hnm => h nm (hd.1 nm hnm), ih h hd.2⟩

theorem declared_append {env : List PyStr} {l l' : List MainStmt} (h : ∀ st ∈ l, st ≠ .declareTemp) :
    DeclaredBeforeUse env (l ++ l') ↔ (∀ st ∈ l, ∀ nm ∈ st.mentions, nm ∈ env) ∧ DeclaredBeforeUse env l' := by
  induction l with
  | nil => simp
  | cons st l ih =>
    have hst := h st (by simp)
    have ih := ih fun x hx => h x (List.mem_cons_of_mem _ hx)
    have e : DeclaredBeforeUse env (st :: l ++ l') ↔ (∀ nm ∈ st.mentions, nm ∈ env) ∧ DeclaredBeforeUse env (l ++ l') := by
      cases st with
      | declareTemp => exact absurd rfl hst
      | _ => exact Iff.rfl
    rw [e, ih, List.forall_mem_cons, and_assoc]

theorem transposeCode_no_declare (destroy : Bool) {n : Nat} (h : n ≠ 0) : ∀ st ∈ transposeCode destroy n, st ≠ .declareTemp := by
  unfold transposeCode
  rw [if_neg h]
  cases destroy <;> simp

/-- The transposes of targets of positive rank. -/
theorem declared_transposes (destroy : Bool) (env : List PyStr) (ranks : List Nat) (h0 : ∀ n ∈ ranks, n ≠ 0)
    (hC : ∀ n ∈ ranks, ('C' :: natStr n : PyStr) ∈ env) (hH : destroy = true → ∀ n ∈ ranks, ('H' :: natStr n : PyStr) ∈ env) :
    DeclaredBeforeUse env (ranks.flatMap (transposeCode destroy)) ↔ destroy = true ∨ tempName ∈ env ∨ ranks = [] := by
  have hno : ∀ st ∈ ranks.flatMap (transposeCode destroy), st ≠ .declareTemp := by
    intro st hst
    obtain ⟨n, hn, hst⟩ := List.mem_flatMap.1 hst
    exact transposeCode_no_declare destroy (h0 n hn) st hst
  have := declared_append (env := env) (l := ranks.flatMap (transposeCode destroy)) (l' := []) hno
  rw [List.append_nil] at this
  rw [this]
  constructor
  · rintro ⟨h, -⟩
    by_cases hd : destroy = true
    · exact Or.inl hd
    · match ranks, h0 with
      | [], _ => exact Or.inr (Or.inr rfl)
      | n :: ranks, h0 =>
        right; left
        refine h (.buildTemp n) ?_ tempName (by simp [MainStmt.mentions])
        rw [List.flatMap_cons]
        apply List.mem_append_left
        unfold transposeCode
        rw [if_neg (h0 n (by simp)), if_neg (by simpa using hd)]
        simp
  · intro h
    refine ⟨fun st hst nm hnm => ?_, trivial⟩
    obtain ⟨n, hn, hst⟩ := List.mem_flatMap.1 hst
    have hc := hC n hn
    unfold transposeCode at hst
    rw [if_neg (h0 n hn)] at hst
    cases hd : destroy with
    | true =>
      have hh := hH hd n hn
      rw [if_pos hd] at hst
      simp only [List.mem_cons, List.not_mem_nil, or_false] at hst
      rcases hst with rfl | rfl <;> simp only [MainStmt.mentions, List.mem_cons, List.not_mem_nil, or_false] at hnm <;>
        rcases hnm with rfl | rfl <;> assumption
    | false =>
      have ht : tempName ∈ env := by
        rcases h with h | h | h
        · rw [hd] at h; cases h
        · exact h
        · rw [h] at hn; simp at hn
      rw [if_neg (by simp [hd])] at hst
      simp only [List.mem_cons, List.not_mem_nil, or_false] at hst
      rcases hst with rfl | rfl | rfl <;> simp only [MainStmt.mentions, List.mem_cons, List.not_mem_nil, or_false] at hnm
      · rw [hnm]; exact ht
      · rcases hnm with rfl | rfl <;> assumption
      · rcases hnm with rfl | rfl <;> assumption

/-! ### Targets -/

theorem bucketKey_spaces {t : Term} {k : List Space × List (List (List Index))} (h : t.bucketKey = .ok k) : k.1 = (openRef t.sqOp).map Index.space := by
  unfold Term.bucketKey at h
  cases hr : t.sqOp.latexPermuteFormat t.permPartitionOpen.1 t.permPartitionOpen.2 with
  | error e => simp only [hr, bind, Except.bind] at h; cases h
  | ok r => simp only [hr, bind, Except.bind, pure, Except.pure] at h; injection h with h; rw [← h]

theorem bucketKey_rank {t : Term} {k : List Space × List (List (List Index))} (h : t.bucketKey = .ok k) : k.1.length / 2 = t.openRank := by
  rw [bucketKey_spaces h]
  unfold openRef Term.openRank
  rw [List.length_map, List.length_append]

/-- The ranks of the blocks are the ranks of the terms. -/
theorem ranks_iff {terms : List Term} {b : Buckets} (hb : categorizeContractions terms = .ok b) (n : Nat) :
    n ∈ ((b.map fun e => e.1.length / 2).dedup).insertionSort (· ≤ ·) ↔ ∃ t ∈ terms, t.openRank = n := by
  obtain ⟨-, -, p3, p4⟩ := C58_partition terms b hb
  rw [(List.perm_insertionSort _ _).mem_iff, List.mem_dedup, List.mem_map]
  constructor
  · rintro ⟨e, he, rfl⟩
    obtain ⟨g, hg⟩ := List.exists_mem_of_ne_nil _ (p3 e he).1
    obtain ⟨t, ht⟩ := List.exists_mem_of_ne_nil _ ((p3 e he).2 g hg).1
    obtain ⟨h1, h2⟩ := ((categorize_flat hb).2 _ (Buckets.mem_flat.2 ⟨e, he, g, hg, rfl⟩)).2 t ht
    exact ⟨t, h1, (bucketKey_rank h2).symm⟩
  · rintro ⟨t, ht, rfl⟩
    obtain ⟨e, he, g, hg, hk, -⟩ := p4 t ht
    exact ⟨e, he, bucketKey_rank hk⟩

/-- The arrays the block functions read are the factors of the terms. -/
theorem used_iff {terms : List Term} {b : Buckets} (hb : categorizeContractions terms = .ok b) {funcs : List BlockFunction}
    (hF : List.Forall₂ (fun e g => blockFunction e.1 e.2 = .ok g) b funcs) (nm : PyStr) :
    nm ∈ funcs.flatMap BlockFunction.tensors ↔ ∃ t ∈ terms, ∃ x ∈ t.tensors, x.arrayName = nm := by
  have hlen := hF.length_eq
  rw [List.mem_flatMap]
  constructor
  · rintro ⟨g, hg, hnm⟩
    obtain ⟨i, hi, rfl⟩ := List.getElem_of_mem hg
    have hi' : i < b.length := by omega
    have hs := blockFunction_ok ((List.forall₂_iff_get.1 hF).2 i hi' hi)
    obtain ⟨t, ht, x, hx, rfl⟩ := (hs.tensors nm).1 hnm
    obtain ⟨q, hq, ht⟩ := List.mem_flatMap.1 ht
    exact ⟨t, (((categorize_flat hb).2 _ (Buckets.mem_flat.2 ⟨_, List.get_mem b ⟨i, hi'⟩, q, hq, rfl⟩)).2 t ht).1, x, hx, rfl⟩
  · rintro ⟨t, ht, x, hx, rfl⟩
    obtain ⟨-, -, -, p4⟩ := C58_partition terms b hb
    obtain ⟨e, he, q, hq, -, htq⟩ := p4 t ht
    obtain ⟨i, hi, rfl⟩ := List.getElem_of_mem he
    have hi' : i < funcs.length := by omega
    have hs := blockFunction_ok ((List.forall₂_iff_get.1 hF).2 i hi hi')
    exact ⟨funcs[i], List.getElem_mem hi', (hs.tensors _).2 ⟨t, List.mem_flatMap.2 ⟨q, hq, htq⟩, x, hx, rfl⟩⟩

theorem ambitTerms_total {terms : List Term} (hs : ∀ t ∈ terms, Shape t) : ∀ init, ∃ prog, ambitTerms init terms = .ok prog := by
  induction terms with
  | nil => exact fun _ => ⟨[], rfl⟩
  | cons t rest ih =>
    intro init
    cases rest with
    | nil => exact ⟨_, (hs t (by simp)).code _ _ _⟩
    | cons u rest =>
      obtain ⟨prog, hprog⟩ := ih (fun x hx => hs x (List.mem_cons_of_mem _ hx)) false
      unfold ambitTerms
      rw [(hs t (by simp)).code, hprog]
      exact ⟨_, rfl⟩

theorem natStr_inj_C {m n : Nat} (h : ('C' :: natStr m : PyStr) = 'C' :: natStr n) : m = n := natStr_injective (List.cons.inj h).2

theorem known_target (n : Nat) : KnownName ('C' :: natStr n) ↔ n ≤ 9 := by
  unfold KnownName
  constructor
  · rintro (⟨k, -, -, h | h⟩ | ⟨k, hk, h⟩)
    · exact absurd (List.cons.inj h).1 (by decide)
    · exact absurd (List.cons.inj h).1 (by decide)
    · rw [natStr_inj_C h]; exact hk
  · exact fun h => Or.inr ⟨n, h, rfl⟩

end Dsrg
