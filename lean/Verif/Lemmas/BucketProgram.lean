import Verif.Lemmas.BucketSum

/-!
The effect of a sequence of buckets.
-/

namespace Dsrg

section
variable {O R M : Type} [Fintype O] [DecidableEq O] [Inhabited O] [CommRing R] [Algebra ℚ R] [AddCommGroup M] [Module R M]

/-- A program adds the amplitudes of some terms to the array of rank `n` and changes no other array but `temp`. -/
def Adds (orb : Orbitals O) (I : Interp O R M) (good : Prop) (n : Nat) (terms : List Term) (run : Store O R → Store O R) : Prop :=
  ∀ s : Store O R, (∀ t ∈ terms, ArraysHold s I t.tensors) →
    I.operator n n (fun os => run s ('C' :: natStr n) os - s ('C' :: natStr n) os) = (terms.map fun t => t.amplitudes orb I).sum ∧
    (good → AntisymmetricArray orb n n fun os => run s ('C' :: natStr n) os - s ('C' :: natStr n) os) ∧
    ∀ nm, nm ≠ 'C' :: natStr n → nm ≠ tempName → run s nm = s nm

/-- The statements a bucket is printed with: `temp` is built or cleared if the key names permutations. -/
theorem adds_cleared (orb : Orbitals O) {I : Interp O R M} (hI : I.Antisymmetric) (hH : I.Hermitian) {sp : List Space}
    {perms : List (List (List Index))} {terms : List Term} (hne : terms ≠ []) (hp : ∀ t ∈ terms, Printable t)
    (hk : ∀ t ∈ terms, t.bucketKey = .ok (sp, perms))
    (hx : ∀ t ∈ terms, ∀ x ∈ t.tensors, x.arrayName ≠ 'C' :: natStr (sp.length / 2)) {good : Prop}
    (hg : good → (∀ t ∈ terms, ∀ u ∈ terms, t.sqOp = u.sqOp) ∧ ∀ t ∈ terms, t.oneSided) :
    (∃ prog, ambitTerms true terms = .ok prog ∧ Adds orb I good (sp.length / 2) terms fun s : Store O R => runCode orb s prog) ∧
    ∃ prog, ambitTerms false terms = .ok prog ∧ (perms = [] → Adds orb I good (sp.length / 2) terms fun s : Store O R => runCode orb s prog) ∧
      (∀ blk, Adds orb I good (sp.length / 2) terms fun s : Store O R => runCode orb s (.build blk :: prog)) ∧
      Adds orb I good (sp.length / 2) terms fun s : Store O R => runCode orb s (.zero :: prog) := by
  constructor
  · obtain ⟨prog, h1, h2⟩ := bucket_effect orb hI hH hne hp hk hx true
    refine ⟨prog, h1, fun s ha => ?_⟩
    obtain ⟨r1, r2, r3⟩ := h2 s ha (Or.inr (Or.inl rfl))
    exact ⟨r1, fun h => r2 (hg h).1 (hg h).2, r3⟩
  · obtain ⟨prog, h1, h2⟩ := bucket_effect orb hI hH hne hp hk hx false
    have hclear : ∀ s : Store O R, (∀ t ∈ terms, ArraysHold s I t.tensors) →
        I.operator (sp.length / 2) (sp.length / 2) (fun os => runCode orb (Function.update s tempName 0) prog ('C' :: natStr (sp.length / 2)) os -
          s ('C' :: natStr (sp.length / 2)) os) = (terms.map fun t => t.amplitudes orb I).sum ∧
        (good → AntisymmetricArray orb (sp.length / 2) (sp.length / 2) fun os =>
          runCode orb (Function.update s tempName 0) prog ('C' :: natStr (sp.length / 2)) os - s ('C' :: natStr (sp.length / 2)) os) ∧
        ∀ nm, nm ≠ 'C' :: natStr (sp.length / 2) → nm ≠ tempName → runCode orb (Function.update s tempName 0) prog nm = s nm := by
      intro s ha
      obtain ⟨r1, r2, r3⟩ := h2 (Function.update s tempName 0) (fun t ht => (ha t ht).update_temp _)
        (Or.inr (Or.inr (Function.update_self _ _ _)))
      have hne' : ('C' :: natStr (sp.length / 2) : PyStr) ≠ tempName := append_natStr_ne ['C'] _
      rw [Function.update_of_ne hne'] at r1 r2
      exact ⟨r1, fun h => r2 (hg h).1 (hg h).2, fun nm n1 n2 => by rw [r3 nm n1 n2, Function.update_of_ne n2]⟩
    refine ⟨prog, h1, fun h s ha => ?_, fun blk s ha => hclear s ha, fun s ha => hclear s ha⟩
    obtain ⟨r1, r2, r3⟩ := h2 s ha (Or.inl h)
    exact ⟨r1, fun h => r2 (hg h).1 (hg h).2, r3⟩

theorem targets_ne {m n : Nat} (h : m ≠ n) : ('C' :: natStr m : PyStr) ≠ 'C' :: natStr n := by
  intro he
  injection he with _ he
  exact h (natStr_injective he)

/-- A sequence of programs. -/
theorem adds_all (orb : Orbitals O) {I : Interp O R M} {good : Prop} (chunks : List (Nat × List Term × (Store O R → Store O R)))
    (hc : ∀ c ∈ chunks, Adds orb I good c.1 c.2.1 c.2.2)
    (hx : ∀ c ∈ chunks, ∀ t ∈ c.2.1, ∀ x ∈ t.tensors, ∀ n, x.arrayName ≠ 'C' :: natStr n) :
    ∀ s : Store O R, (∀ c ∈ chunks, ∀ t ∈ c.2.1, ArraysHold s I t.tensors) →
      (∀ n, I.operator n n (fun os => chunks.foldl (fun s c => c.2.2 s) s ('C' :: natStr n) os - s ('C' :: natStr n) os) =
        (chunks.map fun c => if c.1 = n then (c.2.1.map fun t => t.amplitudes orb I).sum else 0).sum) ∧
      (good → ∀ n, AntisymmetricArray orb n n fun os => chunks.foldl (fun s c => c.2.2 s) s ('C' :: natStr n) os - s ('C' :: natStr n) os) ∧
      ∀ nm, (∀ c ∈ chunks, nm ≠ 'C' :: natStr c.1) → nm ≠ tempName → chunks.foldl (fun s c => c.2.2 s) s nm = s nm := by
  induction chunks with
  | nil =>
    intro s _
    simp only [List.foldl_nil, sub_self]
    exact ⟨fun n => by rw [operator_zero]; rfl, fun _ n => AntisymmetricArray.zero orb n n, by simp⟩
  | cons c chunks ih =>
    intro s ha
    obtain ⟨r1, r2, r3⟩ := hc c (by simp) s (ha c (by simp))
    obtain ⟨q1, q2, q3⟩ := ih (fun d hd => hc d (List.mem_cons_of_mem _ hd)) (fun d hd => hx d (List.mem_cons_of_mem _ hd)) (c.2.2 s)
      (fun d hd t ht => (ha d (List.mem_cons_of_mem _ hd) t ht).of_eq fun x hx' =>
        r3 _ (hx d (List.mem_cons_of_mem _ hd) t ht x hx' c.1) (Tensor.arrayName_ne x))
    simp only [List.foldl_cons]
    have split : ∀ n, (fun os => chunks.foldl (fun s c => c.2.2 s) (c.2.2 s) ('C' :: natStr n) os - s ('C' :: natStr n) os) =
        fun os => (chunks.foldl (fun s c => c.2.2 s) (c.2.2 s) ('C' :: natStr n) os - c.2.2 s ('C' :: natStr n) os) +
          (c.2.2 s ('C' :: natStr n) os - s ('C' :: natStr n) os) := by
      intro n; funext os; ring
    have same : ∀ n, c.1 ≠ n → (fun os => c.2.2 s ('C' :: natStr n) os - s ('C' :: natStr n) os) = fun _ => 0 := by
      intro n h
      funext os
      rw [r3 _ (targets_ne (Ne.symm h)) (append_natStr_ne ['C'] n), sub_self]
    refine ⟨fun n => ?_, fun hg n => ?_, fun nm h1 h2 => ?_⟩
    · rw [split n, operator_add, q1 n, List.map_cons, List.sum_cons, add_comm]
      congr 1
      by_cases h : c.1 = n
      · subst h; rw [if_pos rfl, r1]
      · rw [if_neg h, same n h, operator_zero]
    · rw [split n]
      refine (q2 hg n).add ?_
      by_cases h : c.1 = n
      · subst h; exact r2 hg
      · rw [same n h]; exact AntisymmetricArray.zero orb n n
    · rw [q3 nm (fun d hd => h1 d (List.mem_cons_of_mem _ hd)) h2, r3 nm (h1 c (by simp)) h2]

/-- The same for programs that add to one array. -/
theorem adds_same (orb : Orbitals O) {I : Interp O R M} {good : Prop} (n : Nat) (chunks : List (List Term × (Store O R → Store O R)))
    (hc : ∀ c ∈ chunks, Adds orb I good n c.1 c.2) (hx : ∀ c ∈ chunks, ∀ t ∈ c.1, ∀ x ∈ t.tensors, ∀ n, x.arrayName ≠ 'C' :: natStr n) :
    Adds orb I good n (chunks.flatMap Prod.fst) fun s => chunks.foldl (fun s c => c.2 s) s := by
  intro s ha
  obtain ⟨h1, h2, h3⟩ := adds_all orb (chunks.map fun c => (n, c)) (by
      intro c hc'; obtain ⟨d, hd, rfl⟩ := List.mem_map.1 hc'; exact hc d hd) (by
      intro c hc'; obtain ⟨d, hd, rfl⟩ := List.mem_map.1 hc'; exact hx d hd) s (by
      intro c hc' t ht; obtain ⟨d, hd, rfl⟩ := List.mem_map.1 hc'; exact ha t (List.mem_flatMap.2 ⟨d, hd, ht⟩))
  simp only [List.foldl_map] at h1 h2 h3
  refine ⟨?_, fun hg => h2 hg n, fun nm n1 n2 => h3 nm (by intro c hc'; obtain ⟨d, hd, rfl⟩ := List.mem_map.1 hc'; exact n1) n2⟩
  rw [h1 n, List.map_map]
  simp only [Function.comp_def, if_true]
  rw [List.map_flatMap]
  clear h1 h2 h3 ha hx hc
  induction chunks with
  | nil => rfl
  | cons c chunks ih => rw [List.map_cons, List.sum_cons, ih, List.flatMap_cons, List.sum_append]

end

/-- The buckets, one after another. -/
def Buckets.flat (b : Buckets) : List ((List Space × List (List (List Index))) × List Term) :=
  b.flatMap fun e => e.2.map fun f => ((e.1, f.1), f.2)

theorem Buckets.mem_flat {b : Buckets} {x : (List Space × List (List (List Index))) × List Term} :
    x ∈ b.flat ↔ ∃ e ∈ b, ∃ f ∈ e.2, x = ((e.1, f.1), f.2) := by
  unfold Buckets.flat
  rw [List.mem_flatMap]
  constructor
  · rintro ⟨e, he, hx⟩
    obtain ⟨f, hf, rfl⟩ := List.mem_map.1 hx
    exact ⟨e, he, f, hf, rfl⟩
  · rintro ⟨e, he, f, hf, rfl⟩
    exact ⟨e, he, List.mem_map_of_mem hf⟩

theorem flat_nodup {b : Buckets} (h1 : (b.map Prod.fst).Nodup) (h2 : ∀ e ∈ b, (e.2.map Prod.fst).Nodup) : (b.flat.map Prod.fst).Nodup := by
  have e : b.flat.map Prod.fst = b.flatMap fun e => (e.2.map Prod.fst).map fun k => (e.1, k) := by
    unfold Buckets.flat
    rw [List.map_flatMap]
    simp only [List.map_map, Function.comp_def]
  rw [e, List.nodup_flatMap]
  refine ⟨fun e he => (h2 e he).map fun x y h => (Prod.ext_iff.1 h).2, ?_⟩
  rw [List.nodup_iff_pairwise_ne, List.pairwise_map] at h1
  refine h1.imp fun hne => ?_
  intro x hx hy
  obtain ⟨p, -, rfl⟩ := List.mem_map.1 hx
  obtain ⟨q, -, h⟩ := List.mem_map.1 hy
  exact hne (Prod.ext_iff.1 h).1.symm

theorem groups_perm {κ τ : Type} [DecidableEq κ] (l : List (κ × List τ)) (terms : List τ) (key : τ → κ) (hn : (l.map Prod.fst).Nodup)
    (h1 : ∀ x ∈ l, x.2.Perm (terms.filter fun t => decide (key t = x.1))) (h2 : ∀ t ∈ terms, key t ∈ l.map Prod.fst) :
    (l.flatMap Prod.snd).Perm terms := by
  induction l generalizing terms with
  | nil =>
    have : terms = [] := by
      by_contra hne
      obtain ⟨t, ht⟩ := List.exists_mem_of_ne_nil _ hne
      simpa using h2 t ht
    rw [this]; simp
  | cons x l ih =>
    rw [List.map_cons, List.nodup_cons] at hn
    have hrest := ih (terms.filter fun t => !decide (key t = x.1)) hn.2 (by
      intro y hy
      refine (h1 y (List.mem_cons_of_mem _ hy)).trans (List.Perm.of_eq ?_)
      rw [List.filter_filter]
      refine List.filter_congr fun t _ => ?_
      by_cases h : key t = y.1
      · have : y.1 ≠ x.1 := fun h' => hn.1 (h' ▸ List.mem_map_of_mem hy)
        simp [h, this]
      · simp [h]) (by
      intro t ht
      obtain ⟨ht, hne⟩ := List.mem_filter.1 ht
      rcases List.mem_cons.1 (h2 t ht) with h | h
      · simp [h] at hne
      · exact h)
    rw [List.flatMap_cons]
    exact ((h1 x (by simp)).append hrest).trans (List.filter_append_perm (fun t => decide (key t = x.1)) terms)

theorem categorize_flat {terms : List Term} {b : Buckets} (h : categorizeContractions terms = .ok b) :
    (b.flat.flatMap Prod.snd).Perm terms ∧
      ∀ x ∈ b.flat, x.2 ≠ [] ∧ ∀ t ∈ x.2, t ∈ terms ∧ t.bucketKey = .ok x.1 := by
  obtain ⟨p1, p2, p3, p4⟩ := C58_partition terms b h
  refine ⟨?_, ?_⟩
  · refine groups_perm (κ := List Space × List (List (List Index))) b.flat terms
      (fun t => match t.bucketKey with | .ok k => k | .error _ => ([], [])) (flat_nodup p1 p2) ?_ ?_
    · intro x hx
      obtain ⟨e, he, f, hf, rfl⟩ := Buckets.mem_flat.1 hx
      refine (((p3 e he).2 f hf).2.2).trans (List.Perm.of_eq (List.filter_congr fun t ht => ?_))
      obtain ⟨e', -, f', -, hk, -⟩ := p4 t ht
      rw [hk]
      simp only [Except.ok.injEq]
    · intro t ht
      obtain ⟨e', he', f', hf', hk, -⟩ := p4 t ht
      rw [hk]
      exact List.mem_map.2 ⟨((e'.1, f'.1), f'.2), Buckets.mem_flat.2 ⟨e', he', f', hf', rfl⟩, rfl⟩
  · intro x hx
    obtain ⟨e, he, f, hf, rfl⟩ := Buckets.mem_flat.1 hx
    refine ⟨((p3 e he).2 f hf).1, fun t ht => ?_⟩
    have := (((p3 e he).2 f hf).2.2.mem_iff).1 ht
    rw [List.mem_filter] at this
    exact ⟨this.1, of_decide_eq_true this.2⟩

theorem sum_groups {μ : Type} [AddCommMonoid μ] {κ τ : Type} (l : List (κ × List τ)) (f : τ → μ) (rank : κ → Nat) (trank : τ → Nat) (n : Nat)
    (h : ∀ x ∈ l, ∀ t ∈ x.2, trank t = rank x.1) :
    (l.map fun x => if rank x.1 = n then (x.2.map f).sum else 0).sum = ((l.flatMap Prod.snd).map fun t => if trank t = n then f t else 0).sum := by
  induction l with
  | nil => rfl
  | cons x l ih =>
    rw [List.map_cons, List.sum_cons, List.flatMap_cons, List.map_append, List.sum_append, ih fun y hy => h y (List.mem_cons_of_mem _ hy)]
    congr 1
    have hx := h x (by simp)
    by_cases hr : rank x.1 = n
    · rw [if_pos hr]
      refine congrArg List.sum (List.map_congr_left fun t ht => ?_)
      rw [if_pos ((hx t ht).trans hr)]
    · rw [if_neg hr]
      symm
      apply List.sum_eq_zero
      intro v hv
      obtain ⟨t, ht, rfl⟩ := List.mem_map.1 hv
      rw [if_neg fun h' => hr ((hx t ht).symm.trans h')]

theorem sum_filter_ite {μ τ : Type} [AddCommMonoid μ] (l : List τ) (p : τ → Prop) [DecidablePred p] (f : τ → μ) :
    (l.map fun t => if p t then f t else 0).sum = ((l.filter fun t => decide (p t)).map f).sum := by
  induction l with
  | nil => rfl
  | cons t l ih =>
    by_cases h : p t
    · rw [List.filter_cons_of_pos (by simpa using h)]; simp [h, ih]
    · rw [List.filter_cons_of_neg (by simpa using h)]; simp [h, ih]

end Dsrg
