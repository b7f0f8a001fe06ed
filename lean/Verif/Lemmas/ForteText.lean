import Verif.Spec.ForteText
import Verif.Model.ForteText
import Verif.Lemmas.AmbitText

/-!
Lemmas about reading the generated files.
-/

namespace Dsrg

/-! ### Templates -/

theorem pySub_nil (key v : PyStr) : pySub key v [] = [] := by rw [pySub]

theorem pySub_cons_ne {key v : PyStr} {c : Char} {r : PyStr} (h : key.isPrefixOf (c :: r) = false) : pySub key v (c :: r) = c :: pySub key v r := by
  rw [pySub, if_neg (by simp [h])]

theorem pySub_skip {k : Char} {ks v a s : PyStr} (h : k ∉ a) : pySub (k :: ks) v (a ++ s) = a ++ pySub (k :: ks) v s := by
  induction a with
  | nil => rfl
  | cons c a ih =>
    rw [List.mem_cons, not_or] at h
    have hp : (k :: ks).isPrefixOf (c :: (a ++ s)) = false := by
      simp [List.isPrefixOf, h.1]
    rw [List.cons_append, pySub_cons_ne hp, ih h.2]
    rfl

theorem pySub_none {k : Char} {ks v s : PyStr} (h : k ∉ s) : pySub (k :: ks) v s = s := by
  have := pySub_skip (ks := ks) (v := v) (s := []) h
  rwa [List.append_nil, pySub_nil, List.append_nil] at this

theorem isPrefixOf_append (a s : PyStr) : a.isPrefixOf (a ++ s) = true := by simp

theorem pySub_hit {k : Char} {ks v s : PyStr} : pySub (k :: ks) v (k :: ks ++ s) = v ++ pySub (k :: ks) v s := by
  have h : (k :: ks).isPrefixOf (k :: (ks ++ s)) = true := isPrefixOf_append (k :: ks) s
  rw [List.cons_append, pySub, if_pos ⟨by simp, h⟩]
  simp

theorem toLower_ne {c d : Char} (h : 65 ≤ d.toNat ∧ d.toNat ≤ 90) : c.toLower ≠ d := by
  intro e
  subst e
  unfold Char.toLower at h
  split at h
  · rename_i hc
    obtain ⟨h1, h2⟩ := hc
    have a1 : 65 ≤ c.val.toNat := UInt32.le_iff_toNat_le.1 h1
    have a2 : c.val.toNat ≤ 90 := UInt32.le_iff_toNat_le.1 h2
    have h3 : (c.val + ('a'.val - 'A'.val)).toNat ≤ 90 := h.2
    rw [UInt32.toNat_add] at h3
    have h4 : ('a'.val - 'A'.val).toNat = 32 := by decide
    rw [h4] at h3
    omega
  · rename_i hc
    exact hc ⟨UInt32.le_iff_toNat_le.2 h.1, UInt32.le_iff_toNat_le.2 h.2⟩

theorem upper_not_mem_lower {d : Char} (h : 65 ≤ d.toNat ∧ d.toNat ≤ 90) (s : PyStr) : d ∉ pyLower s := by
  intro hm
  obtain ⟨c, _, hc⟩ := List.mem_map.1 hm
  exact toLower_ne h hc

theorem fillTemplate_eq (ns code : PyStr) : fillTemplate ns code = headerText ns ++ templateMiddle ++ code ++ templateEnd := by
  unfold fillTemplate multiGsub ambitTemplate
  simp only [List.foldl_cons, List.foldl_nil]
  have h1 : pySub headersKey (headerText ns) (headersKey ++ templateMiddle ++ functionsKey ++ templateEnd) =
      headerText ns ++ (templateMiddle ++ functionsKey ++ templateEnd) := by
    have := pySub_hit (k := 'H') (ks := ['E', 'A', 'D', 'E', 'R', 'S']) (v := headerText ns) (s := templateMiddle ++ functionsKey ++ templateEnd)
    rw [pySub_none (s := templateMiddle ++ functionsKey ++ templateEnd) (by decide)] at this
    simpa [headersKey] using this
  rw [h1]
  have h2 : pySub functionsKey code (headerText ns ++ (templateMiddle ++ (functionsKey ++ templateEnd))) =
      headerText ns ++ (templateMiddle ++ (code ++ templateEnd)) := by
    have hit := pySub_hit (k := 'C') (ks := ['P', 'P', '_', 'F', 'U', 'N', 'C', 'T', 'I', 'O', 'N', 'S']) (v := code) (s := templateEnd)
    rw [pySub_none (s := templateEnd) (by decide)] at hit
    rw [functionsKey, pySub_skip (a := headerText ns) (upper_not_mem_lower (by decide) _), pySub_skip (a := templateMiddle) (by decide)]
    exact congrArg _ (congrArg _ hit)
  simpa using h2

/-! ### Indentation -/

theorem pySplit_eq (c : Char) (s : PyStr) : pySplit c s = cutAt c s := by
  induction s with
  | nil => rfl
  | cons x s ih => rw [pySplit, cutAt, ih]; cases cutAt c s <;> rfl

theorem pyStrip_eq {s w : PyStr} (h1 : ∃ c r, s = c :: r ∧ isSpaceChar c = false) (h2 : ∃ r d, s = r ++ [d] ∧ isSpaceChar d = false)
    (hw : ∀ c ∈ w, isSpaceChar c = true) : pyStrip (s ++ w) = s := by
  obtain ⟨c, r, hs, hc⟩ := h1
  have e1 : (s ++ w).dropWhile isSpaceChar = s ++ w := by
    rw [hs, List.cons_append, List.dropWhile_cons_of_neg (by simp [hc])]
  obtain ⟨r', d, hs', hd⟩ := h2
  have e2 : ((s ++ w).reverse).dropWhile isSpaceChar = s.reverse := by
    rw [hs', List.reverse_append, List.reverse_append, List.reverse_singleton, List.singleton_append]
    exact (takeWhile_stop (p := isSpaceChar) (w := w.reverse) (fun x hx => hw x (List.mem_reverse.1 hx)) hd).2
  rw [pyStrip, e1, e2, List.reverse_reverse]

theorem joinWith_cons (sep w : PyStr) {ws : List PyStr} (h : ws ≠ []) : joinWith sep (w :: ws) = w ++ sep ++ joinWith sep ws := by
  cases ws with
  | nil => exact absurd rfl h
  | cons v vs => rfl

theorem joinWith_concat (sep : PyStr) {l : List PyStr} (h : l ≠ []) (x : PyStr) : joinWith sep (l ++ [x]) = joinWith sep l ++ sep ++ x := by
  induction l with
  | nil => exact absurd rfl h
  | cons w l ih =>
    cases l with
    | nil => rfl
    | cons v vs =>
      rw [List.cons_append, joinWith_cons sep w (by simp), ih (by simp), joinWith_cons sep w (by simp)]
      simp

theorem joinWith_first (sep : PyStr) {l : List PyStr} (h : l ≠ []) {P : Char → Prop} (hl : ∀ w ∈ l, ∃ c r, w = c :: r ∧ P c) :
    ∃ c r, joinWith sep l = c :: r ∧ P c := by
  cases l with
  | nil => exact absurd rfl h
  | cons w l =>
    obtain ⟨c, r, rfl, hc⟩ := hl w (by simp)
    cases l with
    | nil => exact ⟨c, r, rfl, hc⟩
    | cons v vs => exact ⟨c, _, rfl, hc⟩

theorem joinWith_last (sep : PyStr) {l : List PyStr} (h : l ≠ []) {d : Char} (hl : ∀ w ∈ l, ∃ r, w = r ++ [d]) : ∃ r, joinWith sep l = r ++ [d] := by
  induction l with
  | nil => exact absurd rfl h
  | cons w l ih =>
    cases l with
    | nil => exact hl w (by simp)
    | cons v vs =>
      obtain ⟨r, hr⟩ := ih (by simp) fun x hx => hl x (by simp [hx])
      rw [joinWith_cons sep w (by simp), hr]
      exact ⟨w ++ sep ++ r, by simp⟩

theorem isSpaceChar_word {c : Char} (h : isWordChar c = true) : isSpaceChar c = false := by
  by_contra hb
  rw [Bool.not_eq_false] at hb
  simp only [isSpaceChar, Bool.or_eq_true, decide_eq_true_eq] at hb
  rcases hb with ((((rfl | rfl) | rfl) | rfl) | rfl) | rfl <;> exact absurd h (by decide)

theorem indented_eq {lines : List PyStr} (hne : lines ≠ []) (h : ∀ l ∈ lines, ∃ st, Line l st) {tail : PyStr} (ht : tail = [] ∨ tail = ['\n']) :
    indented (joinL '\n' lines ++ tail) = indentText ++ joinWith indentText lines := by
  have hnl : ∀ l ∈ lines, '\n' ∉ l := fun l hl => by
    obtain ⟨st, hst⟩ := h l hl
    exact hst.newline
  have h1 : ∃ c r, joinWith indentText lines = c :: r ∧ isSpaceChar c = false := by
    refine joinWith_first _ hne fun w hw => ?_
    obtain ⟨st, hst⟩ := h w hw
    obtain ⟨c, r, hc, hc'⟩ := hst.first
    exact ⟨c, r, hc, isSpaceChar_word hc'⟩
  have h2 : ∃ r d, joinWith indentText lines = r ++ [d] ∧ isSpaceChar d = false := by
    obtain ⟨r, hr⟩ := joinWith_last indentText hne (d := ';') fun w hw => by
      obtain ⟨st, hst⟩ := h w hw
      exact hst.last
    exact ⟨r, ';', hr, by decide⟩
  rw [indented, pySplit_eq]
  rcases ht with rfl | rfl
  · rw [List.append_nil, cutAt_joinL hne hnl]
    have := pyStrip_eq h1 h2 (w := []) (by simp)
    rw [List.append_nil] at this
    rw [this]
  · have e : joinL '\n' lines ++ ['\n'] = joinL '\n' (lines ++ [[]]) := by
      rw [joinL_append _ hne (by simp)]
      rfl
    rw [e, cutAt_joinL (by simp) (by
      intro w hw
      rw [List.mem_append, List.mem_singleton] at hw
      rcases hw with hw | rfl
      · exact hnl w hw
      · simp), joinWith_concat _ hne, List.append_nil, pyStrip_eq h1 h2 (by decide)]

theorem Reads.indent : Reads indentText [] := by
  refine ⟨[], ?_, by simp, rfl⟩
  have b : Lexes [' '] [] := .blank (by decide)
  exact (Lexes.blank (c := '\n') (by decide)).append (b.append (b.append (b.append b)))

theorem Reads.joinIndent {lines : List (PyStr × AmbitStmt)} (hne : lines ≠ []) (h : ∀ e ∈ lines, Line e.1 e.2) :
    Reads (joinWith indentText (lines.map Prod.fst)) (lines.map Prod.snd) := by
  induction lines with
  | nil => exact absurd rfl hne
  | cons e lines ih =>
    cases lines with
    | nil => exact (h e (by simp)).reads'
    | cons f lines =>
      have := ((h e (by simp)).reads'.append Reads.indent).append (ih (by simp) fun x hx => h x (by simp [hx]))
      simpa [joinWith] using this

theorem Text.indented {s : PyStr} {prog : List AmbitStmt} (h : Text s prog) : Reads (indented s) prog := by
  obtain ⟨lines, hne, hl, rfl, tail, htail, rfl⟩ := h
  rw [indented_eq (by simpa using hne) (fun l hm => by
    obtain ⟨e, he, rfl⟩ := List.mem_map.1 hm
    exact ⟨e.2, hl e he⟩) htail]
  simpa using Reads.indent.append (Reads.joinIndent hne hl)

/-! ### The statements of a block -/

/-- Nothing, or one statement on a line of its own. -/
def Prefix (pre : PyStr) (p : List AmbitStmt) : Prop := (pre = [] ∧ p = []) ∨ ∃ l st, Line l st ∧ pre = l ++ ['\n'] ∧ p = [st]

theorem Prefix.text {pre s : PyStr} {p prog : List AmbitStmt} (hp : Prefix pre p) (h : Text s prog) : Text (pre ++ s) (p ++ prog) := by
  rcases hp with ⟨rfl, rfl⟩ | ⟨l, st, hl, rfl, rfl⟩
  · exact h
  · simpa using Text.cons hl h

theorem blockTermsText_ok {limit : ℚ → Nat → ℚ} (hl : ClosestFraction limit) {terms : List Term} (hne : terms ≠ []) (hp : ∀ t ∈ terms, Printable t)
    (hr : ∀ t ∈ terms, Readable t) (hc : ∀ t ∈ terms, t.coeff.den ≤ 1000000000) {pre : PyStr} {p : List AmbitStmt} (hpre : Prefix pre p)
    {prog : List AmbitStmt} (h : ambitTerms false terms = .ok prog) :
    ∃ s, blockTermsText limit pre terms = .ok s ∧ Reads s (p ++ prog) := by
  have hC : CppName ['C'] := ⟨by decide, by decide⟩
  induction terms generalizing prog pre p with
  | nil => exact absurd rfl hne
  | cons t rest ih =>
    cases rest with
    | nil =>
      obtain ⟨s, hs, hT⟩ := termText_ok hl (hp t (by simp)) (hr t (by simp)) (hc t (by simp)) hC h
      exact ⟨_, by simp only [blockTermsText, hs]; rfl, (hpre.text hT).indented⟩
    | cons u rest =>
      simp only [ambitTerms] at h
      obtain ⟨a, ha, h⟩ := bind_ok h
      obtain ⟨b, hb, h⟩ := bind_ok h
      simp only [pure, Except.pure, Except.ok.injEq] at h
      subst h
      obtain ⟨s, hs, hT⟩ := termText_ok hl (hp t (by simp)) (hr t (by simp)) (hc t (by simp)) hC ha
      obtain ⟨s', hs', hR⟩ := ih (by simp) (fun x hx => hp x (by simp [hx])) (fun x hx => hr x (by simp [hx])) (fun x hx => hc x (by simp [hx]))
        (.inl ⟨rfl, rfl⟩) hb
      refine ⟨_, by simp only [blockTermsText, hs, hs']; rfl, ?_⟩
      simpa using (hpre.text hT).indented.append hR

theorem blockBodyText_ok {limit : ℚ → Nat → ℚ} (hl : ClosestFraction limit) {block : List Space} {buckets : List (List (List (List Index)) × List Term)}
    (hne : ∀ e ∈ buckets, e.2 ≠ []) (hp : ∀ e ∈ buckets, ∀ t ∈ e.2, Printable t ∧ Readable t ∧ t.coeff.den ≤ 1000000000) {name : PyStr} :
    ∀ {initiate : Bool} (_ : initiate = true → (∃ e ∈ buckets, e.1 ≠ []) → name = block.map Space.toChar) {prog : List AmbitStmt},
      blockBody block initiate buckets = .ok prog → ∃ s, blockBodyText limit name initiate buckets = .ok s ∧ Reads s prog := by
  induction buckets with
  | nil =>
    intro initiate _ prog h
    simp only [blockBody, Except.ok.injEq] at h
    subst h
    exact ⟨[], rfl, .nil⟩
  | cons e rest ih =>
    intro initiate hname prog h
    simp only [blockBody] at h
    obtain ⟨code, hcode, h⟩ := bind_ok h
    have hterms := fun (pre p) (hpre : Prefix pre p) => blockTermsText_ok hl (hne e (by simp)) (fun t ht => (hp e (by simp) t ht).1)
      (fun t ht => (hp e (by simp) t ht).2.1) (fun t ht => (hp e (by simp) t ht).2.2) hpre hcode
    have ih' := fun i h1 p h2 => ih (fun x hx => hne x (by simp [hx])) (fun x hx => hp x (by simp [hx])) (initiate := i) h1 (prog := p) h2
    by_cases he : e.1 = []
    · rw [if_neg (by simpa using he)] at h
      obtain ⟨more, hmore, h⟩ := bind_ok h
      simp only [pure, Except.pure, Except.ok.injEq] at h
      subst h
      obtain ⟨s, hs, hS⟩ := hterms [] [] (.inl ⟨rfl, rfl⟩)
      obtain ⟨s', hs', hS'⟩ := ih' _ (fun hi ⟨x, hx, hx'⟩ => hname hi ⟨x, by simp [hx], hx'⟩) _ hmore
      refine ⟨s ++ ['\n'] ++ s', ?_, ?_⟩
      · simp only [blockBodyText, he, if_true, hs, decide_true, Bool.and_true, hs', bind, Except.bind, pure, Except.pure]
      · simpa using (hS.append (.blank (c := '\n') (by decide))).append hS'
    · rw [if_pos he] at h
      obtain ⟨more, hmore, h⟩ := bind_ok h
      simp only [pure, Except.pure, Except.ok.injEq] at h
      subst h
      have hpre : Prefix (if initiate then buildText name else zeroText) [if initiate then AmbitStmt.build block else AmbitStmt.zero] := by
        cases initiate
        · exact .inr ⟨_, _, line_zero, rfl, rfl⟩
        · refine .inr ⟨_, _, line_build block, ?_, rfl⟩
          rw [if_pos rfl, hname rfl ⟨e, by simp, he⟩, buildText_eq]
      obtain ⟨s, hs, hS⟩ := hterms _ _ hpre
      obtain ⟨s', hs', hS'⟩ := ih' false (fun hi => absurd hi (by simp)) _ hmore
      refine ⟨s ++ ['\n'] ++ s', ?_, ?_⟩
      · simp only [blockBodyText, he, if_false, hs, decide_false, Bool.and_false, hs', bind, Except.bind, pure, Except.pure]
      · simpa using (hS.append (.blank (c := '\n') (by decide))).append hS'

end Dsrg
