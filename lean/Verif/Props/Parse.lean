import Verif.Spec.Parse
import Verif.Model.Parse
import Verif.Lemmas.ForteText
import Verif.Props.Labels
import Verif.Props.IndexLists
import Verif.Props.Tensors
import Verif.Lemmas.Relabel

/-!
C98: label lists from text.  C99: pairs, operators and tensors from text, lists and objects.
-/

namespace Dsrg

/-! ### Text -/

theorem isSpaceChar_iff (c : Char) : isSpaceChar c = true ↔ c ∈ whiteSpace := by
  simp [isSpaceChar, whiteSpace, or_assoc]

/-- The names in a text: cut at the commas, white space at the ends removed. -/
theorem pyStrip_padded (s : PyStr) : PaddedName s (pyStrip s) := by
  refine ⟨s.takeWhile isSpaceChar, ((s.dropWhile isSpaceChar).reverse.takeWhile isSpaceChar).reverse, ?_, ?_, ?_⟩
  · intro c hc
    exact (isSpaceChar_iff c).1 (List.all_eq_true.1 List.all_takeWhile c hc)
  · intro c hc
    exact (isSpaceChar_iff c).1 (List.all_eq_true.1 List.all_takeWhile c (List.mem_reverse.1 hc))
  · have h1 : s = s.takeWhile isSpaceChar ++ s.dropWhile isSpaceChar := (List.takeWhile_append_dropWhile).symm
    have h2 : s.dropWhile isSpaceChar = ((s.dropWhile isSpaceChar).reverse.dropWhile isSpaceChar).reverse ++
        ((s.dropWhile isSpaceChar).reverse.takeWhile isSpaceChar).reverse := by
      rw [← List.reverse_append, List.takeWhile_append_dropWhile, List.reverse_reverse]
    rw [pyStrip, List.append_assoc, ← h2, ← h1]

/-- A name without white space at the ends, or nothing, is what remains of a padded name. -/
theorem pyStrip_of_padded {s name : PyStr} (h : PaddedName s name) (hn : ∀ c ∈ name, c ∉ whiteSpace) : pyStrip s = name := by
  obtain ⟨b, a, hb, ha, rfl⟩ := h
  have hdrop : ∀ (w r : PyStr), (∀ c ∈ w, c ∈ whiteSpace) → (w ++ r).dropWhile isSpaceChar = r.dropWhile isSpaceChar := by
    intro w r hw
    induction w with
    | nil => rfl
    | cons x w ih =>
      rw [List.cons_append, List.dropWhile_cons_of_pos ((isSpaceChar_iff x).2 (hw x (by simp))), ih fun c hc => hw c (by simp [hc])]
  have hkeep : ∀ (w : PyStr), (∀ c ∈ w, c ∉ whiteSpace) → w.dropWhile isSpaceChar = w := by
    intro w hw
    cases w with
    | nil => rfl
    | cons x w => exact List.dropWhile_cons_of_neg fun h => hw x (by simp) ((isSpaceChar_iff x).1 h)
  rw [pyStrip, List.append_assoc, hdrop _ _ hb]
  cases name with
  | nil =>
    have : a.dropWhile isSpaceChar = [] := by simpa using hdrop a [] ha
    simp [this]
  | cons x name =>
    rw [List.cons_append, List.dropWhile_cons_of_neg fun h => hn x (by simp) ((isSpaceChar_iff x).1 h), ← List.cons_append, List.reverse_append,
      hdrop _ _ fun c hc => ha c (List.mem_reverse.1 hc), hkeep _ fun c hc => hn c (List.mem_reverse.1 hc), List.reverse_reverse]

theorem joinL_cut (s : PyStr) : joinL ',' (cutAt ',' s) = s := by
  induction s with
  | nil => rfl
  | cons x s ih =>
    have hne : cutAt ',' s ≠ [] := by
      cases s with
      | nil => simp [cutAt]
      | cons y s => rw [cutAt]; split <;> [simp; split <;> simp]
    rw [cutAt]
    split
    · rename_i h
      rw [joinL_cons _ _ hne, ih, h]; rfl
    · cases hc : cutAt ',' s with
      | nil => exact absurd hc hne
      | cons w ws =>
        rw [hc] at ih
        cases ws with
        | nil => simp only [joinL] at ih ⊢; rw [← ih]
        | cons v vs => simp only [joinL] at ih ⊢; rw [← ih]; simp

theorem lists_joinL : ∀ {ws : List PyStr}, ws ≠ [] → ListsNames (joinL ',' ws) (ws.map pyStrip)
  | [], h => absurd rfl h
  | [w], _ => .one (pyStrip_padded w)
  | w :: v :: ws, _ => .more (pyStrip_padded w) (by simp) (lists_joinL (by simp))

theorem cutAt_ne (s : PyStr) : cutAt ',' s ≠ [] := by
  cases s with
  | nil => simp [cutAt]
  | cons y s => rw [cutAt]; split <;> [simp; split <;> simp]

/-- The entries are the names listed by the text. -/
theorem textEntries_lists (s : PyStr) : ListsNames s (textEntries s) := by
  unfold textEntries
  split
  · rename_i h
    rw [List.length_eq_zero_iff.1 h]; exact .none
  · rw [pySplit_eq]
    have := lists_joinL (cutAt_ne s)
    rwa [joinL_cut] at this

/-- Names without white space and commas are read back from every text that lists them. -/
theorem textEntries_of_lists {s : PyStr} {names : List PyStr} (h : ListsNames s names)
    (hn : ∀ n ∈ names, n ≠ [] ∧ ∀ c ∈ n, c ∉ whiteSpace ∧ c ≠ ',') : textEntries s = names := by
  have hpad : ∀ {w n : PyStr}, PaddedName w n → (∀ c ∈ n, c ∉ whiteSpace ∧ c ≠ ',') → ',' ∉ w := by
    rintro w n ⟨b, a, hb, ha, rfl⟩ h hm
    simp only [List.mem_append] at hm
    rcases hm with (hm | hm) | hm
    · exact absurd (hb _ hm) (by decide)
    · exact (h _ hm).2 rfl
    · exact absurd (ha _ hm) (by decide)
  have hne : ∀ {w n : PyStr}, PaddedName w n → n ≠ [] → w ≠ [] := by
    rintro w n ⟨b, a, hb, ha, rfl⟩ h hw
    simp_all
  have main : names ≠ [] → s ≠ [] ∧ (cutAt ',' s).map pyStrip = names := by
    induction h with
    | none => intro h; exact absurd rfl h
    | @one s name hp =>
      intro _
      have hq := hn name (by simp)
      refine ⟨hne hp hq.1, ?_⟩
      rw [cutAt_self (hpad hp hq.2), List.map_singleton, pyStrip_of_padded hp fun c hc => (hq.2 c hc).1]
    | @more s name rest names hp hne' hl ih =>
      intro _
      have hq := hn name (by simp)
      refine ⟨by simp, ?_⟩
      rw [cutAt_append (hpad hp hq.2), List.map_cons, pyStrip_of_padded hp fun c hc => (hq.2 c hc).1,
        (ih (fun n hn' => hn n (by simp [hn'])) hne').2]
  by_cases he : names = []
  · subst he
    cases h
    rfl
  · rw [textEntries, if_neg (by simpa using (main he).1), pySplit_eq, (main he).2]

/-! ### Names -/

theorem isDigitChar_iff_range (c : Char) : isDigitChar c = true ↔ '0' ≤ c ∧ c ≤ '9' := by
  simp only [isDigitChar, Bool.and_eq_true, decide_eq_true_eq]
  rfl

theorem parse_iff_names (name : PyStr) (i : NamedIndex) :
    NamedIndex.parse name = .ok i ↔ i.name = name ∧ NamesLabel name i.toIndex := by
  rw [C03_parse_ok]
  have hval : ∀ digits : PyStr, (∀ c ∈ digits, c ∈ decimalDigits) →
      (digits.map fun c => c.toNat - '0'.toNat) = digits.map fun c => decimalDigits.idxOf c := by
    intro digits h
    refine List.map_congr_left fun c hc => ?_
    exact (by decide : ∀ c ∈ decimalDigits, c.toNat - '0'.toNat = decimalDigits.idxOf c) c (h c hc)
  constructor
  · rintro ⟨letter, digits, rfl, -, h2, h3, h4, h5, h6⟩
    refine ⟨h4, digits, by rw [← h5]; rfl, h2, fun c hc => (isDigitChar_iff_range c).1 ((isDigitChar_iff_mem c).2 (h3 c hc)), ?_⟩
    rw [hval _ h3]; exact h6
  · rintro ⟨h1, digits, rfl, h2, h3, h4⟩
    have h3' : ∀ c ∈ digits, c ∈ decimalDigits := fun c hc => (isDigitChar_iff_mem c).1 ((isDigitChar_iff_range c).2 (h3 c hc))
    refine ⟨_, digits, rfl, ?_, h2, h3', h1, rfl, ?_⟩
    · have : ∀ s : Space, s.toChar ∈ labelOrder := by decide
      exact this _
    · rw [← hval _ h3']; exact h4

theorem NamesLabel.functional {name : PyStr} {i j : Index} (hi : NamesLabel name i) (hj : NamesLabel name j) : i = j := by
  have h1 := (parse_iff_names name ⟨name, i.space, i.number⟩).2 ⟨rfl, hi⟩
  have h2 := (parse_iff_names name ⟨name, j.space, j.number⟩).2 ⟨rfl, hj⟩
  rw [h1] at h2
  simp only [Except.ok.injEq, NamedIndex.mk.injEq, true_and] at h2
  cases i; cases j; simp_all

theorem names_name (i : Index) : NamesLabel i.name i :=
  ((parse_iff_names i.name ⟨i.name, i.space, i.number⟩).1 (NamedIndex.parse_name i)).2

theorem NamesLabel.clean {name : PyStr} {i : Index} (h : NamesLabel name i) : name ≠ [] ∧ ∀ c ∈ name, c ∉ whiteSpace ∧ c ≠ ',' := by
  obtain ⟨digits, rfl, -, h3, -⟩ := h
  refine ⟨by simp, fun c hc => ?_⟩
  rw [List.mem_cons] at hc
  rcases hc with rfl | hc
  · have : ∀ s : Space, s.toChar ∉ whiteSpace ∧ s.toChar ≠ ',' := by decide
    exact this _
  · exact (by decide : ∀ c ∈ decimalDigits, c ∉ whiteSpace ∧ c ≠ ',') c ((isDigitChar_iff_mem c).1 ((isDigitChar_iff_range c).2 (h3 c hc)))

theorem itypeOf_iff (typeName : PyStr) (ty : IType) : itypeOf typeName = .ok ty ↔ typeName ∈ classNames ty := by
  constructor
  · intro h
    unfold itypeOf at h
    split at h
    · rename_i e he
      have h1 := List.mem_of_find?_eq_some he
      have h2 : e.1 = typeName := by simpa using List.find?_some he
      have h3 : e.2 = ty := by simpa using h
      subst h2 h3
      exact (by decide : ∀ e ∈ itypeAliases, e.1 ∈ classNames e.2) e h1
    · exact absurd h (by simp)
  · intro h
    cases ty
    · exact absurd h (by simp [classNames])
    · exact (by decide : ∀ a ∈ classNames .spinAdapted, itypeOf a = .ok .spinAdapted) _ h
    · exact (by decide : ∀ a ∈ classNames .antisym, itypeOf a = .ok .antisym) _ h
    · exact (by decide : ∀ a ∈ classNames .spinOrbital, itypeOf a = .ok .spinOrbital) _ h
    · exact (by decide : ∀ a ∈ classNames .spinIntegrated, itypeOf a = .ok .spinIntegrated) _ h

theorem itypeOf_error (typeName : PyStr) (e : PyErr) (h : itypeOf typeName = .error e) : e = .keyError ∧ ∀ ty, typeName ∉ classNames ty := by
  refine ⟨?_, fun ty hty => ?_⟩
  · unfold itypeOf at h
    split at h <;> simp_all
  · rw [(itypeOf_iff _ _).2 hty] at h
    exact absurd h (by simp)

theorem toIndex_iff {e : LabelEntry} (hp : ∀ j, e = .index j → NamesLabel j.name ⟨j.space, j.number⟩) (i : NamedIndex) :
    e.toIndex = .ok i ↔ EntryNames e i.name i.toIndex := by
  cases e with
  | index j =>
    simp only [LabelEntry.toIndex, Except.ok.injEq]
    constructor
    · rintro rfl; exact .index
    · intro h
      generalize hn : i.name = n at h
      generalize hx : i.toIndex = x at h
      cases h
      cases i; cases j
      simp_all [NamedIndex.toIndex]
  | name s =>
    constructor
    · intro h
      have : NamedIndex.parse s = .ok i := by
        simp only [LabelEntry.toIndex] at h
        split at h <;> simp_all
      obtain ⟨rfl, h2⟩ := (parse_iff_names s i).1 this
      exact .name h2
    · intro h
      generalize hn : i.name = n at h
      generalize hx : i.toIndex = x at h
      cases h with
      | name h =>
        subst hx
        simp only [LabelEntry.toIndex, (parse_iff_names s i).2 ⟨hn, h⟩]
  | other =>
    simp only [LabelEntry.toIndex, reduceCtorEq, false_iff]
    intro h
    generalize i.name = n at h
    generalize i.toIndex = x at h
    cases h

/-- The constructor on entries. -/
theorem ofEntries_iff {entries : List LabelEntry} (hp : ∀ j, .index j ∈ entries → NamesLabel j.name ⟨j.space, j.number⟩) (ty : IType) (x : Indices) :
    Indices.ofEntries ty entries = .ok x ↔ ∃ pairs : List (PyStr × Index), x.ty = ty ∧ (pairs.map Prod.fst).Nodup ∧ pairs.map Prod.snd = x.list ∧
      (x.ty = .spinOrbital → ∀ i ∈ x.list, i.space.beta = false) ∧ List.Forall₂ (fun e p => EntryNames e p.1 p.2) entries pairs := by
  have key : ∀ l : List NamedIndex, entries.mapM LabelEntry.toIndex = .ok l ↔
      List.Forall₂ (fun e p => EntryNames e p.1 p.2) entries (l.map fun i => (i.name, i.toIndex)) := by
    intro l
    rw [mapM_ok_forall₂, List.forall₂_map_right_iff]
    clear x
    induction l generalizing entries with
    | nil => cases entries <;> simp
    | cons i l ih =>
      cases entries with
      | nil => simp
      | cons e es =>
        rw [List.forall₂_cons, List.forall₂_cons, ih fun j hj => hp j (by simp [hj]), toIndex_iff fun j hj => hp j (by simp [hj])]
  have hset : ∀ l : List NamedIndex, List.Forall₂ (fun e p => EntryNames e p.1 p.2) entries (l.map fun i => (i.name, i.toIndex)) →
      (setSize l = l.length ↔ (l.map NamedIndex.name).Nodup) := by
    intro l hl
    have hnames : ∀ i ∈ l, NamesLabel i.name i.toIndex := by
      intro i hi
      have : ∃ e ∈ entries, EntryNames e i.name i.toIndex := by
        clear hp x key
        induction l generalizing entries with
        | nil => simp at hi
        | cons k l ih =>
          cases entries with
          | nil => simp at hl
          | cons e es =>
            rw [List.map_cons, List.forall₂_cons] at hl
            rw [List.mem_cons] at hi
            rcases hi with rfl | hi
            · exact ⟨e, by simp, hl.1⟩
            · obtain ⟨e', he', h⟩ := ih hl.2 hi
              exact ⟨e', by simp [he'], h⟩
      obtain ⟨e, he, h⟩ := this
      generalize hn : i.name = n at h
      generalize hx : i.toIndex = y at h
      cases h with
      | name h => exact h
      | index => exact hp _ he
    rw [setSize_eq_iff, List.Nodup, List.pairwise_map]
    refine List.Pairwise.iff_of_mem fun {a b} ha hb => ?_
    simp only [NamedIndex.sameSetElement, NamedIndex.hashKey, NamedIndex.pyEq, Bool.and_eq_true, beq_iff_eq, ne_eq]
    refine not_congr ⟨fun h => h.1.symm, fun h => ⟨h.symm, ?_⟩⟩
    have h1 := hnames a ha
    rw [h] at h1
    have h2 := h1.functional (hnames b hb)
    simp only [NamedIndex.toIndex, Index.mk.injEq] at h2
    exact ⟨h2.1.symm, h2.2.symm⟩
  unfold Indices.ofEntries
  constructor
  · intro h
    obtain ⟨l, hl, h⟩ := bind_ok h
    have hf := (key l).1 hl
    by_cases h1 : setSize l ≠ l.length
    · rw [if_pos h1] at h; exact absurd h (by simp [throw, throwThe, MonadExceptOf.throw, bind, Except.bind])
    rw [if_neg h1] at h
    by_cases h2 : ty = .spinOrbital ∧ l.any NamedIndex.isBeta = true
    · rw [if_pos h2] at h; exact absurd h (by simp [throw, throwThe, MonadExceptOf.throw, bind, Except.bind])
    rw [if_neg h2] at h
    have hx : x = ⟨ty, l.map NamedIndex.toIndex⟩ := by simpa [pure, Except.pure, bind, Except.bind, eq_comm] using h
    subst hx
    refine ⟨_, rfl, ?_, by simp [Function.comp_def], ?_, hf⟩
    · have := (hset l hf).1 (not_not.1 h1)
      simpa [Function.comp_def] using this
    · rintro hso i hi
      obtain ⟨j, hj, rfl⟩ := List.mem_map.1 hi
      have : l.any NamedIndex.isBeta ≠ true := fun hb => h2 ⟨hso, hb⟩
      simp only [ne_eq, List.any_eq_true, not_exists, not_and] at this
      simpa [NamedIndex.isBeta, NamedIndex.toIndex] using this j hj
  · rintro ⟨pairs, rfl, hnd, hsnd, hb, hf⟩
    have hl : ∃ l : List NamedIndex, l.map (fun i => (i.name, i.toIndex)) = pairs :=
      ⟨pairs.map fun p => ⟨p.1, p.2.space, p.2.number⟩, by simp [Function.comp_def, NamedIndex.toIndex]⟩
    obtain ⟨l, rfl⟩ := hl
    have h1 : setSize l = l.length := (hset l hf).2 (by simpa [Function.comp_def] using hnd)
    have h2 : ¬ (x.ty = .spinOrbital ∧ l.any NamedIndex.isBeta = true) := by
      rintro ⟨hso, ha⟩
      obtain ⟨j, hj, hjb⟩ := List.any_eq_true.1 ha
      have := hb hso j.toIndex (by rw [← hsnd]; simp only [List.map_map]; exact List.mem_map.2 ⟨j, hj, rfl⟩)
      rw [show j.toIndex.space.beta = j.isBeta from rfl, hjb] at this
      exact absurd this (by simp)
    have h3 : l.map NamedIndex.toIndex = x.list := by simpa [Function.comp_def] using hsnd
    rw [(key l).2 hf]
    simp only [bind, Except.bind, h1, ne_eq, not_true_eq_false, if_false, h2, h3]
    rfl

theorem nameEntries {names : List PyStr} {pairs : List (PyStr × Index)} :
    List.Forall₂ (fun e p => EntryNames e p.1 p.2) (names.map .name) pairs ↔ names = pairs.map Prod.fst ∧ ∀ p ∈ pairs, NamesLabel p.1 p.2 := by
  induction names generalizing pairs with
  | nil => cases pairs <;> simp
  | cons n names ih =>
    cases pairs with
    | nil => simp
    | cons p pairs =>
      rw [List.map_cons, List.forall₂_cons, ih]
      have : EntryNames (.name n) p.1 p.2 ↔ n = p.1 ∧ NamesLabel p.1 p.2 := by
        constructor
        · intro h
          generalize hn : p.1 = m at h
          cases h with
          | name h => exact ⟨rfl, h⟩
        · rintro ⟨rfl, h⟩; exact .name h
      rw [this]
      simp only [List.map_cons, List.cons.injEq, List.mem_cons, forall_eq_or_imp]
      tauto

/-! ### C98 -/

/-- `Indices.make_indices(text, name)` returns `x` exactly if the name is one of the names of the class of `x` and the text lists names of the
labels of `x` in this order, separated by commas and with any white space around them, no name twice, and no beta label for spin orbitals. -/
theorem C98_exact (s typeName : PyStr) (x : Indices) : makeIndices (.text s) typeName = .ok x ↔ DenotesLabels (.text s) typeName x := by
  unfold makeIndices DenotesLabels NamedList
  constructor
  · intro h
    obtain ⟨ty, h1, h2⟩ := bind_ok h
    obtain ⟨pairs, rfl, h3, h4, h5, h6⟩ := (ofEntries_iff (by simp) ty x).1 h2
    obtain ⟨h7, h8⟩ := nameEntries.1 h6
    exact ⟨pairs, ⟨(itypeOf_iff _ _).1 h1, h3, h4, h5⟩, h7 ▸ textEntries_lists s, h8⟩
  · rintro ⟨pairs, ⟨h1, h3, h4, h5⟩, h7, h8⟩
    rw [(itypeOf_iff _ _).2 h1]
    refine (ofEntries_iff (by simp) x.ty x).2 ⟨pairs, rfl, h3, h4, h5, ?_⟩
    refine nameEntries.2 ⟨textEntries_of_lists h7 fun n hn => ?_, h8⟩
    obtain ⟨p, hp, rfl⟩ := List.mem_map.1 hn
    exact (h8 p hp).clean

theorem textEntries_names {s : PyStr} {pairs : List (PyStr × Index)} (hs : ListsNames s (pairs.map Prod.fst)) (h : ∀ p ∈ pairs, NamesLabel p.1 p.2) :
    textEntries s = pairs.map Prod.fst :=
  textEntries_of_lists hs fun n hn => by
    obtain ⟨p, hp, rfl⟩ := List.mem_map.1 hn
    exact (h p hp).clean

/-- White space does not matter: a text that lists the names `g0`, `g1`, ... of the labels `l` gives the list `l` if a list of the class may hold
these labels, and is not accepted otherwise. -/
theorem C98_reads (ty : IType) (typeName s : PyStr) (l : List Index) (hname : typeName ∈ classNames ty) (hs : ListsNames s (l.map Index.name)) :
    (makeIndices (.text s) typeName = .ok ⟨ty, l⟩ ↔ ListLabels ty l) ∧ ∀ x, makeIndices (.text s) typeName = .ok x → x = ⟨ty, l⟩ := by
  have hl : (l.map fun i => (i.name, i)).map Prod.fst = l.map Index.name := by simp [Function.comp_def]
  have hall : ∀ p ∈ l.map fun i => (i.name, i), NamesLabel p.1 p.2 := by
    intro p hp
    obtain ⟨i, -, rfl⟩ := List.mem_map.1 hp
    exact names_name i
  have hent := textEntries_names (pairs := l.map fun i => (i.name, i)) (hl ▸ hs) hall
  rw [hl] at hent
  have huniq : ∀ pairs : List (PyStr × Index), ListsNames s (pairs.map Prod.fst) → (∀ p ∈ pairs, NamesLabel p.1 p.2) →
      pairs.map Prod.fst = l.map Index.name ∧ pairs.map Prod.snd = l := by
    intro pairs h1 h2
    have h3 := textEntries_names h1 h2
    rw [hent] at h3
    refine ⟨h3.symm, ?_⟩
    clear hs hl hall hent h1
    induction pairs generalizing l with
    | nil => cases l <;> simp_all
    | cons p pairs ih =>
      cases l with
      | nil => simp at h3
      | cons i l =>
        simp only [List.map_cons, List.cons.injEq] at h3 ⊢
        refine ⟨(h2 p (by simp)).functional (h3.1 ▸ names_name i), ih l (fun q hq => h2 q (by simp [hq])) h3.2⟩
  have hok : ∀ x, makeIndices (.text s) typeName = .ok x → x = ⟨ty, l⟩ ∧ ListLabels ty l := by
    intro x hx
    obtain ⟨pairs, ⟨h1, h2, h3, h4⟩, h5, h6⟩ := (C98_exact s typeName x).1 hx
    obtain ⟨h7, h8⟩ := huniq pairs h5 h6
    have hty : x.ty = ty := by
      have e1 := (itypeOf_iff _ _).2 h1
      rw [(itypeOf_iff _ _).2 hname] at e1
      simpa using e1.symm
    have hlist : x.list = l := h3.symm.trans h8
    cases x
    simp only at hty hlist
    subst hty hlist
    refine ⟨rfl, List.Nodup.of_map Index.name (h7 ▸ h2), h4⟩
  refine ⟨⟨fun h => (hok _ h).2, ?_⟩, fun x hx => (hok x hx).1⟩
  rintro ⟨h1, h2⟩
  exact (C98_exact s typeName ⟨ty, l⟩).2 ⟨l.map fun i => (i.name, i), ⟨hname, hl ▸ h1.map Index.name_injective, by simp [Function.comp_def], h2⟩, hl ▸ hs, hall⟩

theorem lists_joinWith : ∀ {names : List PyStr}, names ≠ [] → ListsNames (joinWith [',', ' '] names) names ∧ ListsNames (' ' :: joinWith [',', ' '] names) names
  | [], h => absurd rfl h
  | [n], _ => ⟨.one ⟨[], [], by simp, by simp, by simp [joinWith]⟩, .one ⟨[' '], [], by simp [whiteSpace], by simp, by simp [joinWith]⟩⟩
  | n :: m :: names, _ => by
    have ih := (lists_joinWith (names := m :: names) (by simp)).2
    constructor
    · have := ListsNames.more (s := n) (name := n) ⟨[], [], by simp, by simp, by simp⟩ (by simp) ih
      rw [joinWith_cons _ _ (by simp)]
      simpa using this
    · have := ListsNames.more (s := ' ' :: n) (name := n) ⟨[' '], [], by simp [whiteSpace], by simp, by simp⟩ (by simp) ih
      rw [joinWith_cons _ _ (by simp)]
      simpa using this

theorem lists_text (x : Indices) : ListsNames x.text (x.list.map Index.name) := by
  unfold Indices.text
  by_cases h : x.list = []
  · rw [h]; exact .none
  · exact (lists_joinWith (by simpa using h)).1

/-- The printed form of a label list is read back as the same list, with every name of its class. -/
theorem C98_roundtrip (x : Indices) (hx : Indices.make x.ty x.list = .ok x) (typeName : PyStr) (hname : typeName ∈ classNames x.ty) :
    makeIndices (.text x.text) typeName = .ok x := by
  have h := ((C07_make x.ty x.list).1 x).1 hx
  exact ((C98_reads x.ty typeName x.text x.list hname (lists_text x)).1).2 ⟨h.2.2.1, h.2.2.2⟩

theorem mapM_error {α β ε : Type} {f : α → Except ε β} : ∀ {l : List α} {e : ε}, l.mapM f = .error e → ∃ a ∈ l, f a = .error e
  | [], e, h => by cases h
  | a :: l, e, h => by
    rw [List.mapM_cons] at h
    cases ha : f a with
    | error e' =>
      rw [ha] at h
      have : e' = e := by simpa [bind, Except.bind] using h
      exact ⟨a, by simp, by rw [ha, this]⟩
    | ok b =>
      rw [ha] at h
      cases hl : l.mapM f with
      | error e' =>
        rw [hl] at h
        have : e' = e := by simpa [bind, Except.bind] using h
        obtain ⟨a', h1, h2⟩ := mapM_error hl
        exact ⟨a', by simp [h1], this ▸ h2⟩
      | ok bs => rw [hl] at h; exact absurd h (by simp [bind, Except.bind, pure, Except.pure])

/-- A text that is refused: an unknown class raises `KeyError`; otherwise `ValueError` is raised, except that an empty name (two commas in a row, a
comma at the end, or only white space) raises `IndexError`. -/
theorem C98_errors (s typeName : PyStr) (e : PyErr) (h : makeIndices (.text s) typeName = .error e) :
    (e = .keyError ∧ ∀ ty, typeName ∉ classNames ty) ∨
      (∃ ty, typeName ∈ classNames ty) ∧ (e = .valueError ∨ e = .indexError ∧ ∃ names, ListsNames s names ∧ [] ∈ names) := by
  unfold makeIndices at h
  cases hty : itypeOf typeName with
  | error e' =>
    rw [hty] at h
    have : e' = e := by simpa [bind, Except.bind] using h
    exact .inl (itypeOf_error _ _ (this ▸ hty))
  | ok ty =>
    rw [hty] at h
    refine .inr ⟨⟨ty, (itypeOf_iff _ _).1 hty⟩, ?_⟩
    replace h : Indices.ofEntries ty ((textEntries s).map .name) = .error e := h
    unfold Indices.ofEntries at h
    cases hm : ((textEntries s).map LabelEntry.name).mapM LabelEntry.toIndex with
    | error e' =>
      rw [hm] at h
      have he : e' = e := by simpa [bind, Except.bind] using h
      subst he
      obtain ⟨a, ha, hae⟩ := mapM_error hm
      obtain ⟨n, hn, rfl⟩ := List.mem_map.1 ha
      simp only [LabelEntry.toIndex] at hae
      cases hp : NamedIndex.parse n with
      | ok i => rw [hp] at hae; exact absurd hae (by simp)
      | error e'' =>
        rcases C03_parse_error n e'' hp with ⟨rfl, rfl⟩ | ⟨-, rfl⟩
        · rw [hp] at hae
          exact .inr ⟨by simpa using hae.symm, _, textEntries_lists s, hn⟩
        · rw [hp] at hae
          exact .inl (by simpa using hae.symm)
    | ok l =>
      left
      rw [hm] at h
      simp only [bind, Except.bind, throw, throwThe, MonadExceptOf.throw, pure, Except.pure] at h
      split at h
      · simpa using h.symm
      · split at h
        · simpa using h.symm
        · exact absurd h (by simp)

/-- A comma at the end, or a text of blanks, raises `IndexError`, which is not the documented `ValueError`; the text without the comma and the empty
text are accepted. -/
theorem C98_violation_empty_name :
    makeIndices (.text ['g', '0', ',']) ['s', 'o'] = .error .indexError ∧ makeIndices (.text ['g', '0']) ['s', 'o'] = .ok ⟨.spinOrbital, [⟨⟨.g, false⟩, 0⟩]⟩ ∧
      makeIndices (.text [' ']) ['s', 'o'] = .error .indexError ∧ makeIndices (.text []) ['s', 'o'] = .ok ⟨.spinOrbital, []⟩ := by decide +kernel

/-- The number decides which label a name means, but the names are compared: the text `g1, g01` gives a list with one label twice. -/
theorem C98_violation_repeated :
    makeIndices (.text ['g', '1', ',', 'g', '0', '1']) ['s', 'o'] = .ok ⟨.spinOrbital, [⟨⟨.g, false⟩, 1⟩, ⟨⟨.g, false⟩, 1⟩]⟩ := by decide +kernel

theorem C98_example : makeIndices (.text [' ', 'a', '0', '\n', ',', 'V', '1', '2', ' ']) ['s', 'i'] = .ok ⟨.spinIntegrated, [⟨⟨.a, false⟩, 0⟩, ⟨⟨.v, true⟩, 12⟩]⟩ ∧
    Indices.text ⟨.spinIntegrated, [⟨⟨.a, false⟩, 0⟩, ⟨⟨.v, true⟩, 12⟩]⟩ = ['a', '0', ',', ' ', 'V', '1', '2'] ∧
    makeIndices (.text ['x', '0']) ['s', 'i'] = .error .valueError ∧ makeIndices (.text []) ['s', 'x'] = .error .keyError := by decide +kernel

/-! ### C99 -/

/-- A list or tuple that is refused: an unknown class raises `KeyError`; otherwise `ValueError` is raised, also for an entry that is neither a name
nor an `Index`, except that an empty name raises `IndexError`.  What is no sequence raises `TypeError`. -/
theorem C99_errors (l : List LabelEntry) (arg : LabelArg) (harg : arg = .list l ∨ arg = .tuple l) (typeName : PyStr) :
    (∀ e, makeIndices arg typeName = .error e → (e = .keyError ∧ ∀ ty, typeName ∉ classNames ty) ∨
      (∃ ty, typeName ∈ classNames ty) ∧ (e = .valueError ∨ e = .indexError ∧ .name [] ∈ l)) ∧
    ((∃ ty, typeName ∈ classNames ty) → makeIndices .other typeName = .error .typeError) := by
  refine ⟨fun e h => ?_, ?_⟩
  · unfold makeIndices at h
    cases hty : itypeOf typeName with
    | error e' =>
      rw [hty] at h
      have : e' = e := by simpa [bind, Except.bind] using h
      exact .inl (itypeOf_error _ _ (this ▸ hty))
    | ok ty =>
      rw [hty] at h
      refine .inr ⟨⟨ty, (itypeOf_iff _ _).1 hty⟩, ?_⟩
      replace h : Indices.ofEntries ty l = .error e := by
        rcases harg with rfl | rfl <;> exact h
      unfold Indices.ofEntries at h
      cases hm : l.mapM LabelEntry.toIndex with
      | error e' =>
        rw [hm] at h
        have he : e' = e := by simpa [bind, Except.bind] using h
        subst he
        obtain ⟨a, ha, hae⟩ := mapM_error hm
        cases a with
        | index i => exact absurd hae (by simp [LabelEntry.toIndex])
        | other => exact .inl (by simpa [LabelEntry.toIndex] using hae.symm)
        | name n =>
          simp only [LabelEntry.toIndex] at hae
          cases hp : NamedIndex.parse n with
          | ok i => rw [hp] at hae; exact absurd hae (by simp)
          | error e'' =>
            rcases C03_parse_error n e'' hp with ⟨rfl, rfl⟩ | ⟨-, rfl⟩
            · rw [hp] at hae
              exact .inr ⟨by simpa using hae.symm, ha⟩
            · rw [hp] at hae
              exact .inl (by simpa using hae.symm)
      | ok l' =>
        left
        rw [hm] at h
        simp only [bind, Except.bind, throw, throwThe, MonadExceptOf.throw, pure, Except.pure] at h
        split at h
        · simpa using h.symm
        · split at h
          · simpa using h.symm
          · exact absurd h (by simp)
  · rintro ⟨ty, hty⟩
    unfold makeIndices
    rw [(itypeOf_iff _ _).2 hty]
    rfl

/-- Each way to give labels: the conversion returns `x` exactly if the argument stands for `x`. -/
theorem toIndices_iff {arg : LabelArg} (hp : ProperObjects arg) (typeName : PyStr) (x : Indices) :
    arg.toIndices typeName = .ok x ↔ DenotesLabels arg typeName x := by
  have hlist : ∀ l : List LabelEntry, (∀ j, .index j ∈ l → NamesLabel j.name ⟨j.space, j.number⟩) →
      ((do let ty ← itypeOf typeName; Indices.ofEntries ty l) = .ok x ↔
        ∃ pairs, NamedList typeName pairs x ∧ List.Forall₂ (fun e p => EntryNames e p.1 p.2) l pairs) := by
    intro l hl
    constructor
    · intro h
      obtain ⟨ty, h1, h2⟩ := bind_ok h
      obtain ⟨pairs, rfl, h3, h4, h5, h6⟩ := (ofEntries_iff hl ty x).1 h2
      exact ⟨pairs, ⟨(itypeOf_iff _ _).1 h1, h3, h4, h5⟩, h6⟩
    · rintro ⟨pairs, ⟨h1, h3, h4, h5⟩, h6⟩
      rw [(itypeOf_iff _ _).2 h1]
      exact (ofEntries_iff hl x.ty x).2 ⟨pairs, rfl, h3, h4, h5, h6⟩
  cases arg with
  | object y => simp [LabelArg.toIndices, DenotesLabels]
  | text s => exact C98_exact s typeName x
  | list l => exact hlist l hp
  | tuple l => exact hlist l hp
  | other =>
    simp only [LabelArg.toIndices, DenotesLabels, iff_false, makeIndices]
    intro h
    obtain ⟨ty, -, h2⟩ := bind_ok h
    exact absurd h2 (by simp [Indices.construct])

theorem sameFormat_iff {a b : LabelArg} (ha : a ≠ .other) : a.type = b.type ↔ SameFormat a b := by
  cases a <;> cases b <;> simp_all [LabelArg.type, SameFormat]

/-- `IndicesPair(upper, lower, name)` and `SecondQuantizedOperator(cre, ann, name)` succeed exactly if both arguments stand for label lists and are
given in the same way; then upper and lower labels are these lists, and they are of one class. -/
theorem C99_pair (upper lower : LabelArg) (hu : ProperObjects upper) (hl : ProperObjects lower) (typeName : PyStr) :
    (∀ p, IndicesPair.construct upper lower typeName = .ok p ↔
      DenotesLabels upper typeName p.upper ∧ DenotesLabels lower typeName p.lower ∧ SameFormat upper lower) ∧
    ∀ p, IndicesPair.construct upper lower typeName = .ok p → p.upper.ty = p.lower.ty := by
  have main : ∀ p, IndicesPair.construct upper lower typeName = .ok p ↔
      DenotesLabels upper typeName p.upper ∧ DenotesLabels lower typeName p.lower ∧ SameFormat upper lower := by
    intro p
    rw [← toIndices_iff hu, ← toIndices_iff hl]
    unfold IndicesPair.construct
    constructor
    · intro h
      obtain ⟨u, h1, h⟩ := bind_ok h
      obtain ⟨l, h2, h⟩ := bind_ok h
      by_cases ht : upper.type ≠ lower.type
      · rw [if_pos ht] at h; exact absurd h (by simp [throw, throwThe, MonadExceptOf.throw, bind, Except.bind])
      rw [if_neg ht] at h
      have hp : p = ⟨u, l⟩ := by simpa [pure, Except.pure, bind, Except.bind, eq_comm] using h
      subst hp
      refine ⟨h1, h2, (sameFormat_iff ?_).1 (not_not.1 ht)⟩
      rintro rfl
      exact absurd ((toIndices_iff hu typeName u).1 h1) (by simp [DenotesLabels])
    · rintro ⟨h1, h2, h3⟩
      have ho : upper ≠ .other := by
        rintro rfl
        exact absurd ((toIndices_iff hu typeName _).1 h1) (by simp [DenotesLabels])
      rw [h1, h2]
      simp only [bind, Except.bind, (sameFormat_iff ho).2 h3, ne_eq, not_true_eq_false, if_false]
      rfl
  refine ⟨main, fun p hp => ?_⟩
  obtain ⟨h1, h2, h3⟩ := (main p).1 hp
  have hcls : ∀ {t t' : IType}, typeName ∈ classNames t → typeName ∈ classNames t' → t = t' := by
    intro t t' h h'
    have e1 := (itypeOf_iff _ _).2 h
    rw [(itypeOf_iff _ _).2 h'] at e1
    simpa using e1.symm
  cases upper <;> cases lower <;> simp only [SameFormat] at h3
  · simp only [DenotesLabels] at h1 h2; rw [← h1, ← h2]; exact h3
  · obtain ⟨_, h1, -⟩ := h1; obtain ⟨_, h2, -⟩ := h2; exact hcls h1.1 h2.1
  · obtain ⟨_, h1, -⟩ := h1; obtain ⟨_, h2, -⟩ := h2; exact hcls h1.1 h2.1
  · obtain ⟨_, h1, -⟩ := h1; obtain ⟨_, h2, -⟩ := h2; exact hcls h1.1 h2.1

/-- `Tensor.make_tensor(type, upper, lower, name)` succeeds exactly if `type` is a name of a class of tensors, both arguments stand for labels and
are given in the same way, and the labels have the shape and spin the class asks for; the tensor is of this class, with its name and priority. -/
theorem C99_tensor (tensorType typeName : PyStr) (upper lower : LabelArg) (hu : ProperObjects upper) (hl : ProperObjects lower) (t : Tensor) :
    makeTensor tensorType upper lower typeName = .ok t ↔
      tensorType ∈ tensorNames t.cls ∧ DenotesLabels upper typeName t.upper ∧ DenotesLabels lower typeName t.lower ∧ SameFormat upper lower ∧
        ValidShape t.cls t.upper t.lower ∧ t.name = defaultTensorName t.cls ∧ t.priority = defaultTensorPriority t.cls := by
  have hname : ∀ c : TCls, c.defaultName = defaultTensorName c := by intro c; cases c <;> rfl
  have hprio : ∀ c : TCls, c.defaultPriority = defaultTensorPriority c := by intro c; cases c <;> rfl
  have hcons : ∀ cls : TCls, Tensor.construct cls upper lower typeName cls.defaultName cls.defaultPriority = .ok t ↔
      t.cls = cls ∧ DenotesLabels upper typeName t.upper ∧ DenotesLabels lower typeName t.lower ∧ SameFormat upper lower ∧
        ValidShape t.cls t.upper t.lower ∧ t.name = defaultTensorName t.cls ∧ t.priority = defaultTensorPriority t.cls := by
    intro cls
    rw [← hname, ← hprio]
    unfold Tensor.construct
    constructor
    · intro h
      obtain ⟨p, hp, h⟩ := bind_ok h
      have hty := (C99_pair upper lower hu hl typeName).2 p hp
      obtain ⟨h1, h2, h3⟩ := ((C99_pair upper lower hu hl typeName).1 p).1 hp
      obtain ⟨c1, c2, -⟩ := C18_constructors cls p.upper p.lower cls.defaultName cls.defaultPriority
      by_cases hv : ValidShape cls p.upper p.lower
      · rw [c1 hty hv] at h
        have : t = ⟨cls, cls.defaultName, cls.defaultPriority, p⟩ := by simpa [eq_comm] using h
        subst this
        exact ⟨rfl, h1, h2, h3, hv, rfl, rfl⟩
      · rw [c2 hty hv] at h; exact absurd h (by simp)
    · rintro ⟨rfl, h1, h2, h3, hv, hn, hpr⟩
      have hp : IndicesPair.construct upper lower typeName = .ok t.pair := ((C99_pair upper lower hu hl typeName).1 t.pair).2 ⟨h1, h2, h3⟩
      rw [hp]
      have hty := (C99_pair upper lower hu hl typeName).2 t.pair hp
      refine ((C18_constructors t.cls t.pair.upper t.pair.lower _ _).1 hty hv).trans ?_
      rw [← hn, ← hpr]
  unfold makeTensor
  cases hf : tclsAliases.find? fun e => decide (e.1 = tensorType) with
  | none =>
    simp only [reduceCtorEq, false_iff]
    rintro ⟨h, -⟩
    have hall : ∀ c : TCls, ∀ a ∈ tensorNames c, ∃ e ∈ tclsAliases, e.1 = a := by intro c; cases c <;> decide
    obtain ⟨e, he, hea⟩ := hall _ _ h
    exact absurd (List.find?_eq_none.1 hf e he) (by simp [hea])
  | some e =>
    have h1 := List.mem_of_find?_eq_some hf
    have h2 : e.1 = tensorType := by simpa using List.find?_some hf
    subst h2
    simp only []
    rw [hcons]
    have hin := (by decide : ∀ e ∈ tclsAliases, e.1 ∈ tensorNames e.2) e h1
    have honly : ∀ c, e.1 ∈ tensorNames c → c = e.2 := by
      intro c
      exact (by cases c <;> decide : ∀ e ∈ tclsAliases, e.1 ∈ tensorNames c → c = e.2) e h1
    constructor
    · rintro ⟨h, h'⟩; exact ⟨h ▸ hin, h'⟩
    · rintro ⟨h, h'⟩; exact ⟨honly _ h, h'⟩

/-- Copies: `clone()` of a label list, of a pair or operator and of a tensor, and `from_indices` with the printed labels of a tensor, return an equal
object of the same class. -/
theorem C99_copies (t : Tensor) (ht : Tensor.make t.cls t.upper t.lower t.name t.priority = .ok t) (hu : Indices.make t.upper.ty t.upper.list = .ok t.upper)
    (hl : Indices.make t.lower.ty t.lower.list = .ok t.lower) (typeName : PyStr) (hname : typeName ∈ classNames t.upper.ty) :
    t.upper.clone = .ok t.upper ∧ t.pair.clone false = .ok t.pair ∧ t.clone = .ok t ∧
      IndicesPair.construct (.text t.upper.text) (.text t.lower.text) typeName = .ok t.pair ∧
      t.fromIndices (.text t.upper.text) (.text t.lower.text) typeName = .ok t := by
  have hty : t.upper.ty = t.lower.ty := by
    by_contra h
    rw [(C18_constructors t.cls t.upper t.lower t.name t.priority).2.2 h] at ht
    exact absurd ht (by simp)
  have hpair : IndicesPair.make t.upper t.lower = .ok t.pair := by
    rw [IndicesPair.make, if_neg (not_not.2 hty)]
  have htext : IndicesPair.construct (.text t.upper.text) (.text t.lower.text) typeName = .ok t.pair := by
    unfold IndicesPair.construct LabelArg.toIndices
    simp only []
    rw [C98_roundtrip t.upper hu typeName hname, C98_roundtrip t.lower hl typeName (hty ▸ hname)]
    rfl
  have hobj : IndicesPair.construct (.object t.upper) (.object t.lower) ['s', 'o'] = .ok t.pair :=
    ((C99_pair (.object t.upper) (.object t.lower) trivial trivial _).1 t.pair).2 ⟨rfl, rfl, hty⟩
  refine ⟨hu, hpair, ?_, htext, ?_⟩
  · rw [Tensor.clone, Tensor.construct, hobj]; exact ht
  · rw [Tensor.fromIndices, Tensor.construct, htext]; exact ht

/-- The constructor on a list of names: it succeeds if and only if every name is the name of a label, no name is repeated and, for spin-orbital
labels, no label is a beta label. -/
theorem C07_names (ty : IType) (names : List PyStr) (x : Indices) :
    Indices.ofNames ty names = .ok x ↔ x.ty = ty ∧ names.Nodup ∧ List.Forall₂ NamesLabel names x.list ∧
      (ty = .spinOrbital → ∀ i ∈ x.list, i.space.beta = false) := by
  have hmap : ∀ l, names.mapM NamedIndex.parse = .ok l ↔ (names.map LabelEntry.name).mapM LabelEntry.toIndex = .ok l := by
    intro l
    rw [mapM_ok_forall₂, mapM_ok_forall₂, List.forall₂_map_left_iff]
    have : ∀ n i, NamedIndex.parse n = .ok i ↔ (LabelEntry.name n).toIndex = .ok i := by
      intro n i
      simp only [LabelEntry.toIndex]
      split <;> simp_all
    simp only [this]
  have heq : Indices.ofNames ty names = .ok x ↔ Indices.ofEntries ty (names.map .name) = .ok x := by
    have : ∀ l : List NamedIndex, (do
        if setSize l ≠ l.length then throw PyErr.valueError
        match ty with
        | .spinOrbital => if l.any NamedIndex.isBeta then throw .valueError else pure (⟨ty, l.map NamedIndex.toIndex⟩ : Indices)
        | _ => pure ⟨ty, l.map NamedIndex.toIndex⟩ : Except PyErr Indices) = (do
        if setSize l ≠ l.length then throw PyErr.valueError
        if ty = .spinOrbital ∧ l.any NamedIndex.isBeta = true then throw .valueError
        pure ⟨ty, l.map NamedIndex.toIndex⟩) := by
      intro l
      by_cases h : setSize l = l.length <;> cases ty <;> by_cases hb : l.any NamedIndex.isBeta = true <;> simp [h, hb] <;> rfl
    constructor
    · intro h
      obtain ⟨l, h1, h2⟩ := bind_ok h
      unfold Indices.ofEntries
      rw [(hmap l).1 h1]
      exact (this l).symm.trans h2
    · intro h
      obtain ⟨l, h1, h2⟩ := bind_ok h
      unfold Indices.ofNames
      rw [(hmap l).2 h1]
      exact (this l).trans h2
  rw [heq, ofEntries_iff (by simp)]
  constructor
  · rintro ⟨pairs, rfl, h1, h2, h3, h4⟩
    obtain ⟨rfl, h5⟩ := nameEntries.1 h4
    refine ⟨rfl, h1, ?_, h3⟩
    rw [← h2, List.forall₂_map_left_iff, List.forall₂_map_right_iff]
    exact List.forall₂_same.2 h5
  · rintro ⟨rfl, h1, h2, h3⟩
    refine ⟨names.zip x.list, rfl, ?_, ?_, h3, nameEntries.2 ⟨?_, ?_⟩⟩
    · rw [List.map_fst_zip h2.length_eq.le]; exact h1
    · exact List.map_snd_zip h2.length_eq.ge
    · exact (List.map_fst_zip h2.length_eq.le).symm
    · intro p hp
      exact (List.forall₂_iff_zip.1 h2).2 hp

/-- Upper labels as a text and lower labels as a list, or upper labels as an object and lower labels as a text, raise `TypeError`, although each
argument alone is accepted. -/
theorem C99_violation_mixed :
    IndicesPair.construct (.text ['g', '0']) (.list [.name ['g', '1']]) ['s', 'o'] = .error .typeError ∧
    IndicesPair.construct (.text ['g', '0']) (.text ['g', '1']) ['s', 'o'] = .ok ⟨⟨.spinOrbital, [⟨⟨.g, false⟩, 0⟩]⟩, ⟨.spinOrbital, [⟨⟨.g, false⟩, 1⟩]⟩⟩ ∧
    IndicesPair.construct (.list [.name ['g', '0']]) (.list [.name ['g', '1']]) ['s', 'o'] =
      .ok ⟨⟨.spinOrbital, [⟨⟨.g, false⟩, 0⟩]⟩, ⟨.spinOrbital, [⟨⟨.g, false⟩, 1⟩]⟩⟩ ∧
    IndicesPair.construct (.object ⟨.spinOrbital, [⟨⟨.g, false⟩, 0⟩]⟩) (.text ['g', '1']) ['s', 'o'] = .error .typeError := by decide +kernel

theorem C99_example : makeTensor ['e', 't', 'a'] (.text ['p', '0']) (.text ['g', '1']) ['s', 'o'] =
      .ok ⟨.hole, ['C'], 2, ⟨⟨.spinOrbital, [⟨⟨.p, false⟩, 0⟩]⟩, ⟨.spinOrbital, [⟨⟨.g, false⟩, 1⟩]⟩⟩⟩ ∧
    makeTensor ['e', 't', 'a'] (.text ['p', '0', ',', 'p', '1']) (.text ['g', '1', ',', 'g', '2']) ['s', 'o'] = .error .valueError ∧
    makeTensor ['T'] (.list [.index ⟨['c', '0'], ⟨.c, false⟩, 0⟩]) (.list [.name ['v', '0']]) ['s', 'a'] =
      .ok ⟨.cluster, ['T'], 1, ⟨⟨.spinAdapted, [⟨⟨.c, false⟩, 0⟩]⟩, ⟨.spinAdapted, [⟨⟨.v, false⟩, 0⟩]⟩⟩⟩ ∧
    makeTensor ['x'] (.text ['p', '0']) (.text ['g', '1']) ['s', 'o'] = .error .keyError := by decide +kernel

end Dsrg
