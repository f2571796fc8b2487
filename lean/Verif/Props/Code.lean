import Verif.Spec.CodeMap
import Verif.Lemmas.Code
import Verif.Lemmas.CodeMap

/-!
# Code blocks: C15–C17
-/

namespace Hongdown.Props
open Model Spec

/-- A context for the examples. -/
def codeCx : Cx where
  uni := asciiUni
  width := List.length
  namedEntity := fun _ => none
  properNouns := []
  runFormatter := fun _ _ => .error []
  opts := defaultOptions
  sourceLines := []
  sourceEndsWithNewline := false

/-- **C15.** The general claim is false: without a space after the fence, an info string
that begins with the fence character lengthens the fence. -/
theorem c15_fenced_false :
    ¬ ∀ (cx : Cx) (info : List Char) (ls : List (List Char)) (st : St),
      cx.opts.codeFormatters = [] → cx.callback = none → cx.opts.fenceChar = '~' → 3 ≤ cx.opts.minFenceLength →
      strip cx.opts.defaultLanguage = cx.opts.defaultLanguage →
      '\n' ∉ info → AreLines ls → st.inBlockQuote = false →
      ∃ text, (serCodeBlock cx info (unlines ls) st).output = st.output ++ text ∧
        readFenced (splitOn '\n' text) =
          some (shownInfo cx.opts.defaultLanguage info, ls, [[]]) := by
  intro h
  obtain ⟨text, h1, h2⟩ := h { codeCx with opts := { defaultOptions with spaceAfterFence := false } }
    "~a".toList [] {} rfl rfl rfl (by decide) (by decide) (by decide) (by simp [AreLines]) rfl
  have e : text = "~~~~~a\n~~~~\n".toList := by
    have : (serCodeBlock { codeCx with opts := { defaultOptions with spaceAfterFence := false } }
      "~a".toList (unlines []) {}).output = "~~~~~a\n~~~~\n".toList := by decide +kernel
    rw [this] at h1
    simpa using h1.symm
  rw [e] at h2
  exact absurd h2 (by decide +kernel)

/-- **C15 (partial).** Full statement: without the third condition of `InfoFits`
(`c15_fenced_false` refutes it). What holds: outside block quotes, when no formatter is
configured, the block reads back with its info string and exactly its lines, whatever
text follows. -/
theorem c15_fenced_partial (cx : Cx) (info : List Char) (ls : List (List Char)) (st : St)
    (hf : cx.opts.codeFormatters = [] ∧ cx.callback = none)
    (hfc : cx.opts.fenceChar = '`' ∨ cx.opts.fenceChar = '~') (hmin : 3 ≤ cx.opts.minFenceLength)
    (hd : strip cx.opts.defaultLanguage = cx.opts.defaultLanguage)
    (hi : InfoFits cx.opts.fenceChar cx.opts.spaceAfterFence
      (shownInfo cx.opts.defaultLanguage info))
    (hls : AreLines ls) (hq : st.inBlockQuote = false) :
    ∃ text, (serCodeBlock cx info (unlines ls) st).output = st.output ++ text ∧
      ∀ tail, readFenced (splitOn '\n' (text ++ tail)) =
        some (shownInfo cx.opts.defaultLanguage info, ls, splitOn '\n' tail) := by
  refine ⟨_, by rw [serCodeBlock_output, codeContent_nil hf, hq], ?_⟩
  intro tail
  have hl := lines_unlines hls
  rw [codeBlockText_false, hl, splitOn_unlines]
  · have := readFenced_code (ls := ls) hfc hi
      (n := fenceLength cx.opts.minFenceLength cx.opts.fenceChar (unlines ls))
      (by simp only [fenceLength]; omega)
      (fun l h => leadingFence_lt _ _ _ (by rw [hl]; exact h)) (splitOn '\n' tail)
    rw [strip_shownInfo hd] at this
    simpa [fenceOf] using this
  · intro l h
    simp only [List.cons_append, List.mem_cons, List.mem_append, List.not_mem_nil, or_false] at h
    rcases h with rfl | h | rfl
    · simp only [List.mem_append, not_or]
      exact ⟨replicate_no_nl hfc _, infoPart_no_nl hi⟩
    · exact (hls l h).1
    · exact replicate_no_nl hfc _

example : (serCodeBlock codeCx "rust  ".toList (unlines ["~~~~".toList, [], " x".toList]) {}).output
    = "~~~~~ rust\n~~~~\n\n x\n~~~~~\n".toList := by decide +kernel
example : readFenced (splitOn '\n' "~~~~~ rust\n~~~~\n\n x\n~~~~~\nafter".toList) =
    some ("rust".toList, ["~~~~".toList, [], " x".toList], ["after".toList]) := by decide +kernel

/-- **C15.** The fence has the configured character and minimum length, and is longer only
if some line of the code has, after white space, one fence character less. -/
theorem c15_fence_shape (cx : Cx) (info : List Char) (ls : List (List Char)) (st : St)
    (hf : cx.opts.codeFormatters = [] ∧ cx.callback = none)
    (hfc : cx.opts.fenceChar = '`' ∨ cx.opts.fenceChar = '~') (hmin : 3 ≤ cx.opts.minFenceLength)
    (hi : InfoFits cx.opts.fenceChar cx.opts.spaceAfterFence
      (shownInfo cx.opts.defaultLanguage info))
    (hls : AreLines ls) (hq : st.inBlockQuote = false) :
    ∃ text f, (serCodeBlock cx info (unlines ls) st).output = st.output ++ text ∧
      ((splitOn '\n' text).head?.bind readOpening) = some f ∧
      f.char = cx.opts.fenceChar ∧ cx.opts.minFenceLength ≤ f.length ∧
      (f.length = cx.opts.minFenceLength ∨ ∃ l ∈ ls, ∃ ws t, (∀ c ∈ ws, isWs c = true) ∧
        l = ws ++ List.replicate (f.length - 1) cx.opts.fenceChar ++ t) := by
  have hl := lines_unlines hls
  refine ⟨_, ⟨cx.opts.fenceChar, fenceLength cx.opts.minFenceLength cx.opts.fenceChar (unlines ls),
      strip (shownInfo cx.opts.defaultLanguage info)⟩,
    by rw [serCodeBlock_output, codeContent_nil hf, hq], ?_, rfl, ?_, ?_⟩
  · have := splitOn_unlines (ls := (fenceOf cx (unlines ls) ++ infoPart cx info) ::
      (ls ++ [fenceOf cx (unlines ls)])) ?_ []
    · rw [List.append_nil] at this
      have e : codeBlockText cx false info (unlines ls, none (α := List Char)).1 =
          unlines ((fenceOf cx (unlines ls) ++ infoPart cx info) ::
          (ls ++ [fenceOf cx (unlines ls)])) := by
        rw [codeBlockText_false, hl]; rfl
      rw [e, this]
      simpa [fenceOf] using readOpening_code hfc hi
        (n := fenceLength cx.opts.minFenceLength cx.opts.fenceChar (unlines ls))
        (by simp only [fenceLength]; omega)
    · intro l h
      simp only [List.mem_cons, List.mem_append, List.not_mem_nil, or_false] at h
      rcases h with rfl | h | rfl
      · simp only [List.mem_append, not_or]
        exact ⟨replicate_no_nl hfc _, infoPart_no_nl hi⟩
      · exact (hls l h).1
      · exact replicate_no_nl hfc _
  · simp only [fenceLength]; omega
  · simp only [fenceLength, hl]
    by_cases hm : ((ls.map (leadingFence cx.opts.fenceChar)).foldl max 0) + 1 ≤ cx.opts.minFenceLength
    · exact Or.inl (Nat.max_eq_left hm)
    · right
      rcases foldl_max_attained (ls.map (leadingFence cx.opts.fenceChar)) 0 with h0 | h0
      · omega
      · obtain ⟨l, hlm, hle⟩ := List.mem_map.mp h0
        refine ⟨l, hlm, ?_⟩
        rw [Nat.max_eq_right (by omega), Nat.add_sub_cancel, ← hle]
        obtain ⟨ws, hws, e⟩ := trimStart_append l
        obtain ⟨t, ht⟩ := run_split (c := cx.opts.fenceChar) (s := trimStart l)
          (n := leadingFence cx.opts.fenceChar l) (Nat.le_refl _)
        exact ⟨ws, t, hws, by rw [List.append_assoc, ← ht]; exact e⟩

/-- **C15 (partial).** In a block quote of depth one, every line is a line of the quote and
what is quoted reads back with the info string and exactly the lines. -/
theorem c15_fenced_quoted_partial (cx : Cx) (info : List Char) (ls : List (List Char)) (st : St)
    (hf : cx.opts.codeFormatters = [] ∧ cx.callback = none)
    (hfc : cx.opts.fenceChar = '`' ∨ cx.opts.fenceChar = '~') (hmin : 3 ≤ cx.opts.minFenceLength)
    (hd : strip cx.opts.defaultLanguage = cx.opts.defaultLanguage)
    (hi : InfoFits cx.opts.fenceChar cx.opts.spaceAfterFence
      (shownInfo cx.opts.defaultLanguage info))
    (hls : AreLines ls) (hq : st.inBlockQuote = true) :
    ∃ qs us, (serCodeBlock cx info (unlines ls) st).output = st.output ++ unlines qs ∧
      (∀ q ∈ qs, '\n' ∉ q) ∧ qs.mapM unquote = some us ∧
      readFenced us = some (shownInfo cx.opts.defaultLanguage info, ls, []) := by
  have hl := lines_unlines hls
  refine ⟨_, (fenceOf cx (unlines ls) ++ infoPart cx info) :: (ls ++ [fenceOf cx (unlines ls)]),
    by rw [serCodeBlock_output, codeContent_nil hf, hq, codeBlockText_true], ?_, ?_, ?_⟩
  rotate_left
  · rw [List.cons_append, List.mapM_cons, List.mapM_append,
      mapM_map_some _ _ id unquote_quoteLine, List.mapM_cons, List.mapM_nil]
    simp only [List.cons_append, List.nil_append, unquote_prefix, hl]
    simp
  · have := readFenced_code (ls := ls) hfc hi
      (n := fenceLength cx.opts.minFenceLength cx.opts.fenceChar (unlines ls))
      (by simp only [fenceLength]; omega)
      (fun l h => leadingFence_lt _ _ _ (by rw [hl]; exact h)) []
    rw [strip_shownInfo hd] at this
    simpa [fenceOf, hl] using this
  · intro q h
    simp only [hl, List.cons_append, List.mem_cons, List.mem_append, List.not_mem_nil, or_false,
      List.mem_map] at h
    rcases h with rfl | ⟨l, h, rfl⟩ | rfl
    · simp only [List.nil_append, List.mem_cons, List.mem_append, not_or]
      exact ⟨by decide, by decide, replicate_no_nl hfc _, infoPart_no_nl hi⟩
    · have := (hls l h).1
      rw [quoteLine]; split <;> simp [this]
    · simp only [List.nil_append, List.mem_cons, not_or]
      exact ⟨by decide, by decide, replicate_no_nl hfc _⟩

example : (serCodeBlock codeCx [] (unlines ["a".toList, [], " x".toList])
    { inBlockQuote := true }).output = "> ~~~~\n> a\n>\n>  x\n> ~~~~\n".toList := by decide +kernel

/-- **C16 (partial).** Full statement: the code block of a list item and of a definition read
back with the same lines (`c16_definition_false` refutes it for definitions). Here: in a
list item with an indent of `n` spaces, in a block quote or not. The indent of the first
line is written by the caller. -/
theorem c16_list_item_partial (cx : Cx) (info : List Char) (ls : List (List Char)) (n : Nat) (st : St)
    (hf : cx.opts.codeFormatters = [] ∧ cx.callback = none)
    (hfc : cx.opts.fenceChar = '`' ∨ cx.opts.fenceChar = '~') (hmin : 3 ≤ cx.opts.minFenceLength)
    (hd : strip cx.opts.defaultLanguage = cx.opts.defaultLanguage)
    (hi : InfoFits cx.opts.fenceChar cx.opts.spaceAfterFence
      (shownInfo cx.opts.defaultLanguage info))
    (hls : AreLines ls) :
    ∃ first rest us,
      (serCodeBlockIndented cx info (unlines ls) (spaces n) st).output =
        st.output ++ unlines (first :: rest) ∧
      (∀ q ∈ first :: rest, '\n' ∉ q) ∧
      rest.mapM (fun l => (if st.inBlockQuote then unquote l else some l).bind (unindent n)) =
        some us ∧
      readFenced (first :: us) = some (shownInfo cx.opts.defaultLanguage info, ls, []) := by
  have hl := lines_unlines hls
  refine ⟨_, _, ls ++ [fenceOf cx (unlines ls)], by rw [serCodeBlockIndented_output,
    codeContent_nil hf, codeBlockIndentedText_eq, List.cons_append], ?_, ?_, ?_⟩
  rotate_left
  · rw [List.mapM_append, mapM_map_some _ _ id, List.mapM_cons, List.mapM_nil]
    · cases st.inBlockQuote
      · simp only [Bool.false_eq_true, if_false, List.nil_append, Option.bind_some,
          unindent_spaces, hl]
        simp
      · simp only [if_true, List.cons_append, List.nil_append, unquote_prefix, Option.bind_some,
          unindent_spaces, hl]
        simp
    · intro l
      cases st.inBlockQuote
      · simpa using unindent_indentLine n l
      · simpa [unquote_prefix] using unindent_indentLine n l
  · have := readFenced_code (ls := ls) hfc hi
      (n := fenceLength cx.opts.minFenceLength cx.opts.fenceChar (unlines ls))
      (by simp only [fenceLength]; omega)
      (fun l h => leadingFence_lt _ _ _ (by rw [hl]; exact h)) []
    rw [strip_shownInfo hd] at this
    simpa [fenceOf, hl] using this
  · intro q h
    simp only [hl, List.mem_cons, List.mem_append, List.not_mem_nil, or_false,
      List.mem_map] at h
    have hqp : '\n' ∉ (if st.inBlockQuote = true then ['>', ' '] else []) := by
      split <;> decide
    have hsp : '\n' ∉ spaces n := by
      intro h; exact absurd (List.eq_of_mem_replicate h) (by decide)
    rcases h with rfl | ⟨l, h, rfl⟩ | rfl
    · simp only [List.mem_append, not_or]
      exact ⟨replicate_no_nl hfc _, infoPart_no_nl hi⟩
    · simp only [List.mem_append, not_or]
      refine ⟨hqp, ?_⟩
      rw [indentLine]; split
      · simp
      · simp only [List.mem_append, not_or]; exact ⟨hsp, (hls l h).1⟩
    · simp only [List.mem_append, not_or]
      exact ⟨⟨hqp, hsp⟩, replicate_no_nl hfc _⟩

example : (serCodeBlockIndented codeCx "c".toList (unlines ["a".toList, [], " x".toList]) (spaces 4)
    {}).output = "~~~~ c\n    a\n\n     x\n    ~~~~\n".toList := by decide +kernel

/-- The lines of a definition's code block, without the indent, read as a code block. -/
def readsDefinitionCode (n : Nat) (text : List Char) (info : List Char) (ls : List (List Char)) :
    Prop :=
  ∃ first rest us, text = unlines (first :: rest) ∧ (∀ q ∈ first :: rest, '\n' ∉ q) ∧
    rest.mapM (unindent n) = some us ∧ readFenced (first :: us) = some (info, ls, [])

/-- **C16.** The general claim is false for definitions: only one longer fence is tried. -/
theorem c16_definition_false :
    ¬ ∀ (cx : Cx) (info : List Char) (ls : List (List Char)) (n : Nat) (st : St),
      cx.opts.codeFormatters = [] → cx.callback = none → cx.opts.fenceChar = '~' → 3 ≤ cx.opts.minFenceLength →
      strip cx.opts.defaultLanguage = cx.opts.defaultLanguage →
      InfoFits cx.opts.fenceChar cx.opts.spaceAfterFence (shownInfo cx.opts.defaultLanguage info) →
      AreLines ls → ∃ text,
      (serCodeBlockWithIndent cx info (unlines ls) (spaces n) st).output = st.output ++ text ∧
      readsDefinitionCode n text (shownInfo cx.opts.defaultLanguage info) ls := by
  intro h
  obtain ⟨text, h1, first, rest, us, ht, hn, hm, hr⟩ := h codeCx [] ["~~~~~".toList] 4 {} rfl rfl rfl
    (by decide) (by decide) (by simp [InfoFits, shownInfo]; decide) (by simp [AreLines])
  have e : text = "~~~~~\n    ~~~~~\n    ~~~~~\n".toList := by
    have : (serCodeBlockWithIndent codeCx [] (unlines ["~~~~~".toList]) (spaces 4) {}).output =
      "~~~~~\n    ~~~~~\n    ~~~~~\n".toList := by decide +kernel
    rw [this] at h1
    simpa using h1.symm
  have hs := splitOn_unlines hn []
  rw [List.append_nil, ← ht, e,
    show splitOn '\n' "~~~~~\n    ~~~~~\n    ~~~~~\n".toList =
      ["~~~~~".toList, "    ~~~~~".toList, "    ~~~~~".toList, []] by decide +kernel] at hs
  have hs2 : first :: rest = ["~~~~~".toList, "    ~~~~~".toList, "    ~~~~~".toList] := by
    have := congrArg List.dropLast hs
    rw [show splitOn '\n' [] = [[]] from rfl, List.dropLast_concat] at this
    exact this.symm
  injection hs2 with e1 e2
  subst e1 e2
  have : us = ["~~~~~".toList, "~~~~~".toList] := by
    have : List.mapM (unindent 4) ["    ~~~~~".toList, "    ~~~~~".toList] =
      some ["~~~~~".toList, "~~~~~".toList] := by decide +kernel
    rw [this] at hm; exact (Option.some.inj hm).symm
  subst this
  exact absurd hr (by decide +kernel)

/-- **C16 (partial).** In a definition (outside block quotes) the code reads back exactly
when no line is a closing fence longer than the minimum length. -/
theorem c16_definition_partial (cx : Cx) (info : List Char) (ls : List (List Char)) (n : Nat)
    (st : St) (hf : cx.opts.codeFormatters = [] ∧ cx.callback = none)
    (hfc : cx.opts.fenceChar = '`' ∨ cx.opts.fenceChar = '~') (hmin : 3 ≤ cx.opts.minFenceLength)
    (hd : strip cx.opts.defaultLanguage = cx.opts.defaultLanguage)
    (hi : InfoFits cx.opts.fenceChar cx.opts.spaceAfterFence
      (shownInfo cx.opts.defaultLanguage info))
    (hls : AreLines ls) :
    (∃ text, (serCodeBlockWithIndent cx info (unlines ls) (spaces n) st).output = st.output ++ text ∧
      readsDefinitionCode n text (shownInfo cx.opts.defaultLanguage info) ls) ↔
    ∀ l ∈ ls, isClosing cx.opts.fenceChar (cx.opts.minFenceLength + 1) l = false := by
  have hl := lines_unlines hls
  have hlast : ¬ ((unlines ls).getLast? ≠ some '\n' ∧ unlines ls ≠ []) :=
    fun h => h.1 (unlines_getLast ls h.2)
  have hsp : '\n' ∉ spaces n := by
    intro h; exact absurd (List.eq_of_mem_replicate h) (by decide)
  -- the number of fence characters
  obtain ⟨k, hk3, hfence, hk⟩ : ∃ k, 3 ≤ k ∧
      detailsFence cx (unlines ls) = List.replicate k cx.opts.fenceChar ∧
      ((∀ l ∈ ls, isClosing cx.opts.fenceChar (cx.opts.minFenceLength + 1) l = false) ↔
        ∀ l ∈ ls, isClosing cx.opts.fenceChar k l = false) := by
    by_cases hc : containsSub (List.replicate cx.opts.minFenceLength cx.opts.fenceChar) (unlines ls)
    · exact ⟨cx.opts.minFenceLength + 1, by omega, by simp [detailsFence, hc], Iff.rfl⟩
    · have hno : ∀ l ∈ ls, isClosing cx.opts.fenceChar cx.opts.minFenceLength l = false := by
        intro l hm
        cases hcl : isClosing cx.opts.fenceChar cx.opts.minFenceLength l with
        | false => rfl
        | true => exact absurd (containsSub_of_closing hm hcl) hc
      refine ⟨cx.opts.minFenceLength, hmin, by simp [detailsFence, hc], ?_⟩
      constructor
      · intro _; exact hno
      · intro h l hm
        cases hcl : isClosing cx.opts.fenceChar (cx.opts.minFenceLength + 1) l with
        | false => rfl
        | true =>
          have := isClosing_mono (n := cx.opts.minFenceLength) (by omega) hcl
          rw [h l hm] at this; exact absurd this (by decide)
  have htext : codeBlockWithIndentText cx info (unlines ls) (spaces n) =
      unlines ((List.replicate k cx.opts.fenceChar ++ infoPart cx info) ::
        (ls.map (indentLine (spaces n)) ++ [spaces n ++ List.replicate k cx.opts.fenceChar])) := by
    rw [codeBlockWithIndentText_eq, hl, if_neg hlast, hfence]; simp
  have hnl : ∀ q ∈ (List.replicate k cx.opts.fenceChar ++ infoPart cx info) ::
        (ls.map (indentLine (spaces n)) ++ [spaces n ++ List.replicate k cx.opts.fenceChar]),
        '\n' ∉ q := by
    intro q h
    simp only [List.mem_cons, List.mem_append, List.not_mem_nil, or_false, List.mem_map] at h
    rcases h with rfl | ⟨l, h, rfl⟩ | rfl
    · simp only [List.mem_append, not_or]
      exact ⟨replicate_no_nl hfc _, infoPart_no_nl hi⟩
    · rw [indentLine]; split
      · simp
      · simp only [List.mem_append, not_or]; exact ⟨hsp, (hls l h).1⟩
    · simp only [List.mem_append, not_or]
      exact ⟨hsp, replicate_no_nl hfc _⟩
  have hmap : (ls.map (indentLine (spaces n)) ++ [spaces n ++ List.replicate k cx.opts.fenceChar]).mapM
      (unindent n) = some (ls ++ [List.replicate k cx.opts.fenceChar]) := by
    rw [List.mapM_append, mapM_map_some _ _ id (unindent_indentLine n), List.mapM_cons,
      List.mapM_nil, unindent_spaces]
    simp
  rw [hk]
  constructor
  · rintro ⟨text, h1, first, rest, us, ht, hn, hm, hr⟩ l hlm
    rw [serCodeBlockWithIndent_output, codeContent_nil hf, htext] at h1
    have h2 := List.append_cancel_left h1
    rw [ht] at h2
    have hA := splitOn_unlines hnl []
    have hB := splitOn_unlines hn []
    rw [List.append_nil] at hA hB
    rw [h2, hB] at hA
    have hC := List.append_cancel_right hA
    injection hC with e1 e2
    subst e1 e2
    rw [hmap] at hm
    have hm := (Option.some.inj hm).symm
    subst hm
    simp only [readFenced, readOpening_code hfc hi hk3, Option.map_some, Option.some.injEq,
      Prod.mk.injEq] at hr
    cases hcl : isClosing cx.opts.fenceChar k l with
    | false => rfl
    | true =>
      have := readBody_short ⟨l, hlm, hcl⟩ [List.replicate k cx.opts.fenceChar]
      rw [hr.2.1] at this
      omega
  · intro h
    refine ⟨_, by rw [serCodeBlockWithIndent_output, codeContent_nil hf, htext], _, _, _, rfl, hnl,
      hmap, ?_⟩
    simp only [readFenced, readOpening_code hfc hi hk3, Option.map_some]
    rw [readBody_append h (isClosing_fence (fence_sp hfc) k), strip_shownInfo hd]

example : (serCodeBlockWithIndent codeCx "c".toList (unlines ["~~~~".toList, []]) (spaces 4)
    {}).output = "~~~~~ c\n    ~~~~\n\n    ~~~~~\n".toList := by decide +kernel

/-- **C16.** In a definition, code without a line break at its end (a formatter can return
that) gets an extra empty line. -/
theorem c16_definition_newline_false :
    (serCodeBlockWithIndent
      { codeCx with
        runFormatter := fun _ _ => .ok "x".toList
        opts := { defaultOptions with codeFormatters := [("c".toList, ⟨["f".toList], 5⟩)] } }
      "c".toList "y\n".toList (spaces 4) {}).output = "~~~~ c\n    x\n\n    ~~~~\n".toList := by
  decide +kernel

/-- The three serializers of code blocks. -/
def codeSerializers (indent : List Char) : List (Cx → List Char → List Char → St → St) :=
  [serCodeBlock, fun cx info lit => serCodeBlockIndented cx info lit indent,
    fun cx info lit => serCodeBlockWithIndent cx info lit indent]

/-- **C17.** Without a formatter for the block the result does not depend on formatters. -/
theorem c17_none (cx : Cx) (hcb : cx.callback = none) (indent info literal : List Char) (st : St)
    (h : chosenFormatter cx.opts.codeFormatters cx.opts.defaultLanguage info = none) :
    ∀ f ∈ codeSerializers indent, f cx info literal st = f (noFormatters cx) info literal st := by
  have h1 := codeContent_eq cx hcb info literal
  rw [h] at h1
  have h2 := codeContent_nil (cx := noFormatters cx) ⟨rfl, rfl⟩ info literal
  intro f hf
  simp only [codeSerializers, List.mem_cons, List.not_mem_nil, or_false] at hf
  rcases hf with rfl | rfl | rfl
  · simp only [serCodeBlock, h1, h2]; rfl
  · simp only [serCodeBlockIndented, h1, h2]; rfl
  · simp only [serCodeBlockWithIndent, h1, h2]; rfl

/-- **C17.** If the formatter succeeds, the result is that of its output, with no warning. -/
theorem c17_ok (cx : Cx) (hcb : cx.callback = none) (indent info literal s : List Char) (st : St) (fm : CodeFormatter)
    (h : chosenFormatter cx.opts.codeFormatters cx.opts.defaultLanguage info = some fm)
    (hr : cx.runFormatter fm literal = .ok s) :
    ∀ f ∈ codeSerializers indent, f cx info literal st = f (noFormatters cx) info s st ∧
      (f cx info literal st).warnings = st.warnings := by
  have h1 := codeContent_eq cx hcb info literal
  simp only [h, hr] at h1
  have h2 := codeContent_nil (cx := noFormatters cx) ⟨rfl, rfl⟩ info s
  intro f hf
  simp only [codeSerializers, List.mem_cons, List.not_mem_nil, or_false] at hf
  rcases hf with rfl | rfl | rfl
  · simp only [serCodeBlock, h1, h2]; exact ⟨rfl, rfl⟩
  · simp only [serCodeBlockIndented, h1, h2]; exact ⟨rfl, rfl⟩
  · simp only [serCodeBlockWithIndent, h1, h2]; exact ⟨rfl, rfl⟩

/-- **C17.** If the formatter fails, the result is that without formatters and one more
warning, which ends with the error. -/
theorem c17_error (cx : Cx) (hcb : cx.callback = none) (indent info literal e : List Char) (st : St) (fm : CodeFormatter)
    (h : chosenFormatter cx.opts.codeFormatters cx.opts.defaultLanguage info = some fm)
    (hr : cx.runFormatter fm literal = .error e) :
    ∀ f ∈ codeSerializers indent,
      (f cx info literal st).output = (f (noFormatters cx) info literal st).output ∧
      ∃ m, e <:+ m ∧ languageOf cx.opts.defaultLanguage info <:+: m ∧
        f cx info literal st =
          { f (noFormatters cx) info literal st with warnings := st.warnings ++ [⟨0, m⟩] } := by
  have h1 := codeContent_eq cx hcb info literal
  simp only [h, hr] at h1
  have h2 := codeContent_nil (cx := noFormatters cx) ⟨rfl, rfl⟩ info literal
  intro f hf
  simp only [codeSerializers, List.mem_cons, List.not_mem_nil, or_false] at hf
  have hs : e <:+ formatterWarning fm.command (languageOf cx.opts.defaultLanguage info) e :=
    ⟨_, rfl⟩
  have hl : languageOf cx.opts.defaultLanguage info <:+:
      formatterWarning fm.command (languageOf cx.opts.defaultLanguage info) e :=
    infix_warning _ _ _
  rcases hf with rfl | rfl | rfl
  · simp only [serCodeBlock, h1, h2]; exact ⟨rfl, _, hs, hl, rfl⟩
  · simp only [serCodeBlockIndented, h1, h2]; exact ⟨rfl, _, hs, hl, rfl⟩
  · simp only [serCodeBlockWithIndent, h1, h2]; exact ⟨rfl, _, hs, hl, rfl⟩

/-- A context whose formatter for `c` fails. -/
def failCx : Cx :=
  { codeCx with
    runFormatter := fun _ _ => .error "boom".toList
    opts := { defaultOptions with codeFormatters := [("c".toList, ⟨["f".toList, "-x".toList], 5⟩)] } }

example : (serCodeBlock failCx "c".toList "x\n".toList {}).warnings =
    [⟨0, "code formatter 'f -x' failed for language 'c': boom".toList⟩] := by decide +kernel
example : (serCodeBlock failCx "c".toList "x\n".toList {}).output = "~~~~ c\nx\n~~~~\n".toList := by
  decide +kernel
example : (serCodeBlock failCx "c hongdown-no-format".toList "x\n".toList {}).warnings = [] := by
  decide +kernel

/-- **C17.** Formatting a whole document with code formatters does what formatting without them
does on the document whose code blocks hold the output of their formatters, wherever the code
blocks are. The warnings of that run are kept, in order, and unless a formatter fails on one of the
code blocks they are all there is. -/
theorem c17_document (cx : Cx) (hcb : cx.callback = none) (root : Node) :
    let out := formatDoc (noFormatters cx)
      (mapCode (formattedBy cx.opts.codeFormatters cx.runFormatter cx.opts.defaultLanguage) root)
    (∃ ws, formatDoc cx root = { out with warnings := ws } ∧ (out.warnings).Sublist ws) ∧
    ((∀ e ∈ codeBlocksOf root,
        ¬ FailsOn cx.opts.codeFormatters cx.runFormatter cx.opts.defaultLanguage e.1 e.2) →
      formatDoc cx root = out) := by
  intro out
  obtain ⟨w, h1, h2, h3⟩ := formatDoc_rel cx root
  rw [formattedCode_eq cx hcb] at h1
  have ho : out = { formatDoc cx root with warnings := w } := h1
  refine ⟨⟨(formatDoc cx root).warnings, ?_, ?_⟩, fun h => ?_⟩
  · rw [ho]
  · rw [ho]; exact h2
  · rw [ho, h3 fun e he => codeContent_silent cx hcb _ _ (h e he)]

/-- A context whose formatter for `c` puts a tab before the code and fails on `x`. -/
def tabCx : Cx :=
  { codeCx with
    runFormatter := fun _ s => if s = "x\n".toList then .error "boom".toList else .ok ('\t' :: s)
    opts := { defaultOptions with codeFormatters := [("c".toList, ⟨["f".toList], 5⟩)] } }

/-- A list item, a block quote and a paragraph with code blocks. -/
def exCodeTree : Node :=
  .mk .document ⟨1, 1, 9, 3⟩
    [.mk (.list .bullet true) ⟨1, 1, 3, 5⟩
      [.mk .item ⟨1, 1, 3, 5⟩ [.mk .paragraph ⟨1, 3, 1, 3⟩ [.mk (.text "i".toList) ⟨1, 3, 1, 3⟩ []],
        .mk (.codeBlock "c".toList "y\n".toList) ⟨2, 3, 4, 5⟩ []]],
     .mk .blockQuote ⟨5, 1, 7, 5⟩ [.mk (.codeBlock "c".toList "x\n".toList) ⟨5, 3, 7, 5⟩ []],
     .mk (.codeBlock "d".toList "z\n".toList) ⟨8, 1, 9, 3⟩ []]

example : (formatDoc tabCx exCodeTree).output =
    " -  i\n\n    ~~~~ c\n    \ty\n    ~~~~\n\n> ~~~~ c\n> x\n> ~~~~\n\n~~~~ d\nz\n~~~~\n".toList ∧
    (formatDoc tabCx exCodeTree).warnings =
      [⟨0, "code formatter 'f' failed for language 'c': boom".toList⟩] := by decide +kernel

end Hongdown.Props
