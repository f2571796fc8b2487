import Verif.Lemmas.WrapText

/-!
# Wrapping: C11–C14, C60
-/

namespace Hongdown.Props
open Model Spec

/-! ## C11 -/

/-- **C11.** With prefixes of whitespace only, `wrap_text` keeps every visible character, in
order, for every text, width and width function. -/
theorem c11_wrap_text_visible (w : List Char → Nat) (text pfx : List Char) (lw : Nat)
    (hp : ∀ c ∈ pfx, isWs c = true) : visible (wrapText w text pfx lw) = visible text :=
  visible_wrapText w lw (visible_ws hp)

/-- **C11.** So does `wrap_text_first_line`. -/
theorem c11_wrap_first_line_visible (w : List Char → Nat) (text fp pfx : List Char) (lw : Nat)
    (hf : ∀ c ∈ fp, isWs c = true) (hp : ∀ c ∈ pfx, isWs c = true) :
    visible (wrapTextFirstLine w text fp pfx lw) = visible text :=
  visible_wrapTextFirstLine w lw (visible_ws hf) (visible_ws hp)

example : wrapText List.length "ab `c d` [e f] g\nh".toList "  ".toList 9 =
    "  ab\n  `c d`\n  [e f] g  \n  h".toList := by decide +kernel

/-- **C11.** The claim that no word is split is false: a leading space splits the first word. -/
theorem c11_wrap_words_false :
    ¬ ∀ (text : List Char) (lw : Nat), words (wrapText List.length text [] lw) = words text := by
  intro h
  exact absurd (h " foo".toList 80) (by decide +kernel)

/-- **C11 (partial).** Full statement: for every text the lines are the prefix followed by
pieces whose words, in order, are those of the text (`c11_wrap_words_false` refutes it for
text with a leading space). Proved: it holds, for every prefix without line breaks and every
width function, if between hard breaks the text is one soft line not beginning with a space,
or several soft lines none of which is blank. -/
theorem c11_wrap_words_partial (w : List Char → Nat) (text pfx : List Char) (lw : Nat)
    (hp : '\n' ∉ pfx) (hs : ∀ s ∈ splitOn '\n' text, SoftOk s) :
    ∃ cs : List (List Char),
      (splitOn '\n' (wrapText w text pfx lw)).map trimEnd = cs.map (fun c => trimEnd (pfx ++ c)) ∧
      cs.flatMap words = words text ∧ cs.flatMap visible = visible text :=
  wrapText_layout w lw hp hs

example : ∀ s ∈ splitOn '\n' "ab `c d` [e f]\x00 g\nh".toList, SoftOk s := by decide +kernel
example : wrapText List.length "ab `c d` [e f]\x00 g\nh".toList "> ".toList 9 =
    "> ab\n> `c d`\n> [e f] g  \n> h".toList := by decide +kernel

/-- **C11 (partial).** The same for `wrap_text_first_line` without hard breaks; the first line
has a prefix of its own. -/
theorem c11_wrap_first_line_words_partial (w : List Char → Nat) (text fp pfx : List Char) (lw : Nat)
    (hf : '\n' ∉ fp) (hp : '\n' ∉ pfx) (ht : '\n' ∉ text) (hs : SoftOk text) :
    ∃ cs : List (List Char),
      (splitOn '\n' (wrapTextFirstLine w text fp pfx lw)).map trimEnd = (layout fp pfx cs).map trimEnd ∧
      cs.flatMap words = words text ∧ cs.flatMap visible = visible text := by
  have : wrapTextFirstLine w text fp pfx lw = wrapSegment w text fp pfx lw := by
    rw [wrapTextFirstLine, splitOn_of_not_mem ht]
  rw [this]
  exact wrapSegment_layout w lw hf hp ht hs

example : wrapTextFirstLine List.length "ab cd ef".toList [] "    ".toList 7 =
    "ab cd\n    ef".toList := by decide +kernel

/-! ## C12 -/

/-- **C12.** Every line of a wrapped segment fits the width, or is a prefix followed by one
unbreakable piece. -/
theorem c12_single_segment_width (w : List Char → Nat) (hw : WidthOk w) (text fp pfx : List Char) (lw : Nat)
    (hf : PfxOk fp) (hp : PfxOk pfx) (hf' : '\n' ∉ fp) (hp' : '\n' ∉ pfx) (ht : '\n' ∉ text) :
    ∀ l ∈ splitOn '\n' (wrapSingle w text fp pfx lw),
      w l ≤ lw ∨ ∃ p u, (p = fp ∨ p = pfx) ∧ Unbreakable u ∧ l = trimEnd (p ++ u) :=
  fun _ hl => wrapSingle_width hw lw hf hp hf' hp' ht hl

/-- **C12.** No line of a wrapped segment ends in whitespace. -/
theorem c12_single_segment_no_trailing (w : List Char → Nat) (text fp pfx : List Char) (lw : Nat)
    (hf' : '\n' ∉ fp) (hp' : '\n' ∉ pfx) (ht : '\n' ∉ text) :
    ∀ l ∈ splitOn '\n' (wrapSingle w text fp pfx lw), ∀ c ∈ l.getLast?, isWs c = false := by
  intro l hl
  rw [wrapSingle_lines w lw hf' hp' ht] at hl
  obtain ⟨r, _, rfl⟩ := List.mem_map.mp hl
  exact trimEnd_getLast r

/-- **C12.** The same for whole texts with soft and hard breaks; the two spaces of a hard
break do not count. -/
theorem c12_wrap_text_width (w : List Char → Nat) (hw : WidthOk w) (text pfx : List Char) (lw : Nat)
    (hp : PfxOk pfx) (hp' : '\n' ∉ pfx) (hs : ∀ s ∈ splitOn '\n' text, SoftOk s) :
    ∀ l ∈ splitOn '\n' (wrapText w text pfx lw),
      w (trimEnd l) ≤ lw ∨ ∃ u, Unbreakable u ∧ trimEnd l = trimEnd (pfx ++ u) := by
  intro l hl
  have h1 : trimEnd l ∈ (splitOn '\n' (wrapText w text pfx lw)).map trimEnd := List.mem_map_of_mem hl
  rw [wrapText_eq, splitOn_hard (by simp [splitOn_ne_nil])] at h1
  obtain ⟨o, ho, h1⟩ := List.mem_flatMap.mp h1
  obtain ⟨s, hsm, rfl⟩ := List.mem_map.mp ho
  obtain ⟨m, hm, he⟩ := List.mem_map.mp h1
  rw [← he]
  rcases wrapSegment_width hw lw hp hp hp' hp' (splitOn_not_mem _ _ s hsm) (hs s hsm) hm with h | ⟨p, u, h2, h3, h4⟩
  · exact Or.inl (Nat.le_trans (hw.trim m) h)
  · refine Or.inr ⟨u, h3, ?_⟩
    have : p = pfx := h2.elim id id
    rw [h4, trimEnd_idem, this]

example : WidthOk List.length := by
  have h := widthOk_sum (fun _ => 1) rfl
  have e : (fun s : List Char => (s.map fun _ => 1).sum) = List.length := by
    funext s; induction s with
    | nil => rfl
    | cons _ _ ih => simp at ih ⊢; omega
  rw [e] at h; exact h
example : wrapText List.length "ab [too long here] c\x00def".toList "> ".toList 8 =
    "> ab\n> [too long here]\n> c def".toList := by decide +kernel

/-- **C12.** Lines are filled: a line is ended only if the next unbreakable piece, with the
space that follows it, would not have fitted. -/
theorem c12_lines_filled (w : List Char → Nat) (hw : WidthOk w) (text p : List Char) (lw : Nat)
    (hp' : '\n' ∉ p) (hc : CleanLine text) (a c : List (List Char)) (l1 l2 : List Char)
    (h : splitOn '\n' (wrapSingle w text p p lw) = a ++ l1 :: l2 :: c) :
    ∃ u r, l2 = p ++ u ++ r ∧ u ≠ [] ∧ Unbreakable u ∧ (r = [] ∨ r.head? = some ' ') ∧
      lw < w l1 + 1 + w u + (if c = [] ∧ r = [] then 0 else 1) := by
  obtain ⟨gs, hL⟩ := lines_of_clean w p lw hc
  have e := wrapSingle_clean hL.clean hL.gne hL.fix
  rw [hL.join] at e
  rw [e, splitOn_join (by simpa using hL.ne)] at h
  · obtain ⟨ga, gr, rfl, rfl, h1⟩ := List.map_eq_append_iff.mp h
    obtain ⟨g1, gr, rfl, rfl, h2⟩ := List.map_eq_cons_iff.mp h1
    obtain ⟨g2, gc, rfl, rfl, rfl⟩ := List.map_eq_cons_iff.mp h2
    have hfix := hL.fix
    rw [groups_fill] at hfix
    obtain ⟨t, r, rfl, hlt⟩ := fill_break _ _ _ _ _ _ hfix
    have hcl := hL.clean
    rw [List.flatten_append, List.flatten_cons, List.flatten_cons] at hcl
    have hc1 := hcl.right
    have hc2 := hc1.right
    have k1 := lineText_group hc1 (hL.gne g1 (by simp))
    rw [if_neg (by simp)] at k1
    rw [k1.1, ← List.append_assoc, hw.spaces _ (by simp)] at hlt
    have ht1 : ∀ c ∈ t.1.getLast?, isWs c = false := hc2.fin' t (by simp)
    have hbare := hc2.bare t (by simp)
    have htne := hc2.ne t (by simp)
    by_cases hr : r = []
    · subst hr
      have hc3 : Clean (t :: gc.flatten) := hc2
      have e2 : lineText [t] = t.1 := by
        rw [lineText, tokText_cons, tokText_nil, List.append_nil, trimEnd_append_ws, trimEnd_of_getLast ht1]
        intro x hx; rw [hc3.spaces t (by simp) x hx]; decide
      refine ⟨t.1, [], by rw [e2]; simp, htne, hbare, Or.inl rfl, ?_⟩
      by_cases hgc : gc = []
      · subst hgc
        have : t.2 = [] := hc3.last t (by simp)
        rw [this] at hlt
        simpa using hlt
      · have hfl : gc.flatten ≠ [] := by
          obtain ⟨x, xs, rfl⟩ := List.exists_cons_of_ne_nil hgc
          have := hL.gne x (by simp)
          simp [this]
        have : t.2 = [' '] := hc3.single t (by rw [List.dropLast_cons_of_ne_nil hfl]; simp)
        rw [this] at hlt
        simpa [hgc] using hlt
    · have : t.2 = [' '] := hc2.single t (by
        rw [List.cons_append, List.dropLast_cons_of_ne_nil (by simp [hr])]; simp)
      have hc4 : Clean ([t] ++ (r ++ gc.flatten)) := hc2
      have k3 := lineText_group hc4.right hr
      have e2 : lineText (t :: r) = t.1 ++ ' ' :: lineText r := by
        rw [lineText, tokText_cons, trimEnd_append_right k3.2.1, this]
        simp [lineText]
      refine ⟨t.1, ' ' :: lineText r, by rw [e2]; simp, htne, hbare, Or.inr rfl, ?_⟩
      rw [this] at hlt
      simpa using hlt
  · intro l hl hn
    obtain ⟨g, hg, rfl⟩ := List.mem_map.mp hl
    rcases List.mem_append.mp hn with hn | hn
    · exact hp' hn
    · have := (hL.line g hg).1.ws '\n' hn (by decide)
      exact absurd this (by decide)

/-- **C12.** A line is never ended inside a code span or inside brackets, and the lines, put
after each other with single spaces, are the text. -/
theorem c12_breaks_outside_spans (w : List Char → Nat) (text p : List Char) (lw : Nat)
    (hc : CleanLine text) :
    ∃ ls : List (List Char), wrapSingle w text p p lw = joinWith ['\n'] (ls.map (p ++ ·)) ∧
      joinWith [' '] ls = text ∧ ∀ l ∈ ls.dropLast, EndsOutside l := by
  obtain ⟨gs, hL⟩ := lines_of_clean w p lw hc
  have e := wrapSingle_clean hL.clean hL.gne hL.fix
  rw [hL.join] at e
  refine ⟨gs.map lineText, by rw [e, List.map_map]; rfl, hL.join, ?_⟩
  intro l hl
  rw [← List.map_dropLast] at hl
  obtain ⟨g, hg, rfl⟩ := List.mem_map.mp hl
  obtain ⟨x, y, hxy⟩ := List.append_of_mem hg
  have hgs : gs = x ++ (g :: (y ++ [gs.getLast hL.ne])) := by
    have h1 := (List.dropLast_concat_getLast hL.ne).symm
    rw [hxy] at h1
    simpa using h1
  have hne := hL.gne
  have hcl := hL.clean
  generalize gs.getLast hL.ne = z at hgs
  subst hgs
  rw [List.flatten_append, List.flatten_cons] at hcl
  have hc1 := hcl.right
  have k1 := lineText_group hc1 (hne g (by simp))
  have hfl : ¬ (y ++ [z]).flatten = [] := by
    have := hne z (by simp)
    simp [this]
  rw [if_neg hfl] at k1
  have k2 : endSt false 0 (tokText g) = (false, 0) := by
    apply endsOutside_tokText
    · intro q hq
      apply hc1.fin
      rw [List.dropLast_append_of_ne_nil hfl]; simp [hq]
    · intro q hq; exact hc1.spaces q (by simp [hq])
  rw [k1.1, endSt_append] at k2
  unfold EndsOutside
  generalize endSt false 0 (lineText g) = q at k2 ⊢
  obtain ⟨b, d⟩ := q
  cases b
  · simpa [endSt] using k2
  · simp [endSt] at k2

example : CleanLine "ab `c d` [e f] g".toList := by constructor <;> decide +kernel
example : splitOn '\n' (wrapSingle List.length "ab `c d` [e f] g".toList [] [] 8) =
    ["ab".toList, "`c d`".toList, "[e f] g".toList] := by decide +kernel
example : 8 < "ab".toList.length + 1 + "`c d`".toList.length + 1 := by decide

/-- **C12.** After a hard break `wrap_text_first_line` loses track of the prefix: a line of two
words can be wider than the limit. -/
theorem c12_first_line_hard_break_false :
    ¬ ∀ (text fp pfx : List Char) (lw : Nat), PfxOk fp → PfxOk pfx →
        (∀ s ∈ splitOn '\n' text, SoftOk s) →
        ∀ l ∈ splitOn '\n' (wrapTextFirstLine List.length text fp pfx lw),
          (trimEnd l).length ≤ lw ∨ ∃ u, Unbreakable u ∧ trimEnd l = trimEnd (pfx ++ u) := by
  intro h
  have h1 := h "x\nab cd".toList [] "    ".toList 6 (by decide) (by decide) (by decide +kernel)
    "    ab cd".toList (by decide +kernel)
  rcases h1 with h1 | ⟨u, hu, he⟩
  · exact absurd h1 (by decide)
  · have hb : ' ' ∈ bareGo false 0 u := by
      obtain ⟨t, ht, e⟩ := trimEnd_append ("    ".toList ++ u)
      rw [← he] at e
      have e' : "    ".toList ++ u = "    ".toList ++ ("ab cd".toList ++ t) := e
      rw [List.append_cancel_left e']
      simp [bareGo]
    exact hu hb

/-! ## C13 -/

/-- **C13.** The output is one piece for each hard-break-separated part of the text, joined by
two spaces and a newline; no line inside a piece ends in whitespace, so that there are no
other hard breaks; each piece has the words of its part. -/
theorem c13_hard_breaks (w : List Char → Nat) (text pfx : List Char) (lw : Nat)
    (hp : ∀ c ∈ pfx, c = ' ') (hs : ∀ s ∈ splitOn '\n' text, SoftOk s) :
    ∃ outs : List (List Char), wrapText w text pfx lw = joinWith "  \n".toList outs ∧
      outs.map words = (splitOn '\n' text).map words ∧
      ∀ o ∈ outs, ∀ l ∈ splitOn '\n' o, ∀ c ∈ l.getLast?, isWs c = false := by
  have hp' : '\n' ∉ pfx := fun h => absurd (hp _ h) (by decide)
  refine ⟨_, wrapText_eq w text pfx lw, ?_, ?_⟩
  · rw [List.map_map]
    apply List.map_congr_left
    intro s hsm
    obtain ⟨cs, h1, h2, _⟩ := wrapSegment_layout w lw hp' hp' (splitOn_not_mem _ _ s hsm) (hs s hsm)
    simp only [Function.comp]
    rw [← h2, ← words_splitOn isSep_nl (wrapSegment w s pfx pfx lw)]
    have e : ∀ ls : List (List Char), ls.flatMap words = (ls.map trimEnd).flatMap words := by
      intro ls; rw [List.flatMap_map]; simp only [words_trimEnd]
    rw [e, h1, layout_same, ← e, List.flatMap_map]
    simp only [words_seps (fun c hc => hp c hc ▸ isSep_space)]
  · intro o ho
    obtain ⟨s, hsm, rfl⟩ := List.mem_map.mp ho
    refine wrapSegment_last hp' hp' (splitOn_not_mem _ _ s hsm) (fun hn => ?_)
    have := hs s hsm
    rwa [SoftOk, if_pos hn] at this

example : wrapText List.length "a b\nc\x00d e".toList "  ".toList 80 = "  a b  \n  c\n  d e".toList := by
  decide +kernel

/-- **C13.** Soft lines that fit are kept as they are. -/
theorem c13_fitting_lines_kept (w : List Char → Nat) (hw : WidthOk w) (pfx : List Char) (lw : Nat)
    (ls : List (List Char)) (h2 : 2 ≤ ls.length) (hl : ∀ l ∈ ls, trim l = l ∧ l ≠ [] ∧ '\n' ∉ l ∧ '\x00' ∉ l)
    (hp : PfxOk pfx) (hfit : ∀ l ∈ ls, w (pfx ++ l) ≤ lw) :
    wrapText w (joinWith ['\x00'] ls) pfx lw = joinWith ['\n'] (ls.map (pfx ++ ·)) := by
  have hne : ls ≠ [] := by rintro rfl; simp at h2
  have hnl : '\n' ∉ joinWith ['\x00'] ls := by
    intro h
    rcases mem_joinWith h with h | ⟨l, hm, h⟩
    · exact absurd h (by decide)
    · exact (hl l hm).2.2.1 h
  have hsp : splitOn nul (joinWith ['\x00'] ls) = ls := splitOn_join hne (fun l hm => (hl l hm).2.2.2)
  rw [wrapText_eq, splitOn_of_not_mem hnl]
  simp only [List.map_cons, List.map_nil, joinWith]
  rw [wrapSegment, hsp, if_neg (by omega),
    wrapLines_body w pfx lw ls (fun l hm => by rw [(hl l hm).1]; exact (hl l hm).2.1) hne]
  simp only [if_pos, List.nil_append]
  have key : ∀ ls : List (List Char), (∀ l ∈ ls, trim l = l) → (∀ l ∈ ls, w (pfx ++ l) ≤ lw) →
      bodyLines w pfx lw pfx ls = ls.map (pfx ++ ·) := by
    intro ls
    induction ls with
    | nil => intro _ _; rfl
    | cons l r ih =>
      intro h1 h2
      have := h2 l (by simp)
      rw [hw.append hp] at this
      rw [bodyLines, h1 l (by simp), if_pos this, ih (fun x hx => h1 x (by simp [hx]))
        (fun x hx => h2 x (by simp [hx]))]
      rfl
  rw [key ls (fun l hm => (hl l hm).1) hfit]

example : wrapText List.length "a b\x00c\x00d e".toList "> ".toList 5 = "> a b\n> c\n> d e".toList := by
  decide +kernel

/-! ## C14 -/

/-- **C14.** Wrapping is not stable in general: with two spaces between words the line breaks
move when an overlong word comes before. -/
theorem c14_wrap_stable_false :
    ¬ ∀ (ls : List (List Char)) (text : List Char) (lw : Nat), '\n' ∉ text →
        wrapText List.length text [] lw = joinWith ['\n'] ls → (∀ l ∈ ls, '\n' ∉ l) →
        wrapText List.length (joinWith ['\x00'] ls) [] lw = joinWith ['\n'] ls := by
  intro h
  exact absurd (h ["bbbbbbbbbbbb".toList, "aaaa".toList, "ccc d".toList]
    "bbbbbbbbbbbb aaaa  ccc d".toList 9 (by decide) (by decide +kernel) (by decide)) (by decide +kernel)

/-- **C14 (partial).** Full statement: reading the lines back as soft lines, and hard breaks as
hard breaks, and wrapping again gives the same output (`c14_wrap_stable_false` refutes it).
Proved for texts whose soft lines are not blank and have single spaces between words, with
any code spans and brackets. -/
theorem c14_wrap_stable_partial (w : List Char → Nat) (text pfx : List Char) (lw : Nat)
    (hc : ∀ s ∈ splitOn '\n' text, ∀ l ∈ splitOn '\x00' s, CleanLine l) :
    ∃ lss : List (List (List Char)),
      wrapText w text pfx lw =
        joinWith "  \n".toList (lss.map fun ls => joinWith ['\n'] (ls.map (pfx ++ ·))) ∧
      (∀ ls ∈ lss, ls ≠ [] ∧ ∀ l ∈ ls, '\n' ∉ l ∧ '\x00' ∉ l) ∧
      wrapText w (joinWith ['\n'] (lss.map (joinWith ['\x00']))) pfx lw = wrapText w text pfx lw := by
  obtain ⟨lss, hlen, hz⟩ := exists_lists (l := splitOn '\n' text)
    (fun s hsm => wrapSegment_stable w (p := pfx) lw (hc s hsm))
  have hmem : ∀ ls ∈ lss, ∃ s ∈ splitOn '\n' text, (s, ls) ∈ (splitOn '\n' text).zip lss := by
    intro ls hls
    obtain ⟨i, hi, rfl⟩ := List.mem_iff_getElem.mp hls
    have hi' : i < (splitOn '\n' text).length := by omega
    refine ⟨(splitOn '\n' text)[i], List.getElem_mem hi', ?_⟩
    rw [List.mem_iff_getElem]
    exact ⟨i, by simp; omega, by simp⟩
  have hout : wrapText w text pfx lw =
      joinWith "  \n".toList (lss.map fun ls => joinWith ['\n'] (ls.map (pfx ++ ·))) := by
    rw [wrapText_eq]
    congr 1
    exact map_of_zip hlen (fun q hq => (hz q hq).2.2.1)
  have hcl : ∀ ls ∈ lss, ls ≠ [] ∧ ∀ l ∈ ls, '\n' ∉ l ∧ '\x00' ∉ l := by
    intro ls hls
    obtain ⟨s, hsm, hq⟩ := hmem ls hls
    have h1 := hz _ hq
    refine ⟨h1.1, fun l hl => ⟨fun hn => ?_, fun hn => ?_⟩⟩
    · rcases (h1.2.1 l hl).2 _ hn with h | h
      · exact absurd h (by decide)
      · exact splitOn_not_mem _ _ s hsm h.1
    · rcases (h1.2.1 l hl).2 _ hn with h | h
      · exact absurd h (by decide)
      · exact h.2 rfl
  refine ⟨lss, hout, hcl, ?_⟩
  rw [hout, wrapText_eq, splitOn_join, List.map_map]
  · congr 1
    apply List.map_congr_left
    intro ls hls
    obtain ⟨s, hsm, hq⟩ := hmem ls hls
    exact (hz _ hq).2.2.2
  · have : lss ≠ [] := by
      intro h
      rw [h] at hlen
      exact splitOn_ne_nil '\n' text (List.length_eq_zero_iff.mp hlen.symm)
    simpa using this
  · intro q hq hn
    obtain ⟨ls, hls, rfl⟩ := List.mem_map.mp hq
    rcases mem_joinWith hn with h | ⟨l, hl, h⟩
    · exact absurd h (by decide)
    · exact ((hcl ls hls).2 l hl).1 h

example : ∀ s ∈ splitOn '\n' "ab `c d` [e f]\x00g\nh".toList, ∀ l ∈ splitOn '\x00' s, CleanLine l := by
  intro s hs l hl
  have e : splitOn '\n' "ab `c d` [e f]\x00g\nh".toList = ["ab `c d` [e f]\x00g".toList, ['h']] := by
    decide +kernel
  rw [e] at hs
  have e1 : splitOn '\x00' "ab `c d` [e f]\x00g".toList = ["ab `c d` [e f]".toList, ['g']] := by
    decide +kernel
  simp only [List.mem_cons, List.not_mem_nil, or_false] at hs
  rcases hs with rfl | rfl
  · rw [e1] at hl
    simp only [List.mem_cons, List.not_mem_nil, or_false] at hl
    rcases hl with rfl | rfl <;> constructor <;> decide +kernel
  · have : l = ['h'] := by simpa [splitOn] using hl
    subst this; constructor <;> decide +kernel

/-! ## C60 -/

/-- **C60.** Wrapping can turn a word of a paragraph into a block marker: a paragraph that does
not begin with one is broken before a `-`, and the second line begins a list. -/
theorem c60_no_new_block_false :
    ¬ ∀ (text : List Char) (lw : Nat), (∀ x ∈ (words text).head?, blockWord x = false) →
        ∀ l ∈ splitOn '\n' (wrapText List.length text [] lw), ∀ x ∈ (words l).head?, blockWord x = false := by
  intro h
  have := h "aaaaaa - b".toList 8 (by decide +kernel) "- b".toList (by decide +kernel) ['-']
    (by decide +kernel)
  exact absurd this (by decide)

/-- **C60 (partial).** Full statement: if the first word of a paragraph is no block marker, no
line of the wrapped paragraph begins with one (`c60_no_new_block_false` refutes it). Proved:
lines only begin with words of the text, so it holds when no word is a block marker. -/
theorem c60_no_new_block_partial (w : List Char → Nat) (text pfx : List Char) (lw : Nat)
    (hp : ∀ c ∈ pfx, c = ' ') (hs : ∀ s ∈ splitOn '\n' text, SoftOk s)
    (hb : ∀ x ∈ words text, blockWord x = false) :
    ∀ l ∈ splitOn '\n' (wrapText w text pfx lw), ∀ x ∈ (words l).head?, blockWord x = false := by
  intro l hl x hx
  have hp' : '\n' ∉ pfx := fun h => absurd (hp _ h) (by decide)
  obtain ⟨cs, h1, h2, _⟩ := wrapText_layout w lw hp' hs
  have hm : trimEnd l ∈ cs.map (fun c => trimEnd (pfx ++ c)) := by
    rw [← h1]; exact List.mem_map_of_mem hl
  obtain ⟨c, hc, he⟩ := List.mem_map.mp hm
  have hw : words l = words c := by
    rw [← words_trimEnd l, ← he, words_trimEnd, words_seps (fun c hc => hp c hc ▸ isSep_space)]
  apply hb
  rw [← h2]
  refine List.mem_flatMap.mpr ⟨c, hc, ?_⟩
  rw [← hw]
  exact List.mem_of_mem_head? hx

example : (∀ s ∈ splitOn '\n' "one two\x00three".toList, SoftOk s) ∧
    ∀ x ∈ words "one two\x00three".toList, blockWord x = false := by decide +kernel

end Hongdown.Props
