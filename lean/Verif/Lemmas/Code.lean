import Verif.Spec.Code
import Verif.Lemmas.Str
import Verif.Model.Code

set_option linter.unusedSimpArgs false

namespace Hongdown

open Spec Model

theorem unlines_cons (l : List Char) (ls : List (List Char)) :
    unlines (l :: ls) = l ++ '\n' :: unlines ls := by simp [unlines]

theorem linesGo_append {l : List Char} (h : '\n' ∉ l) (acc rest : List Char) :
    linesGo acc (l ++ '\n' :: rest) = stripCR (acc.reverse ++ l) :: linesGo [] rest := by
  induction l generalizing acc with
  | nil => simp [linesGo]
  | cons c cs ih =>
    have hc : c ≠ '\n' := by intro e; exact h (by simp [e])
    have := ih (by intro hm; exact h (by simp [hm])) (c :: acc)
    simp [linesGo, hc, this]

theorem lines_unlines {ls : List (List Char)} (h : AreLines ls) : lines (unlines ls) = ls := by
  induction ls with
  | nil => rfl
  | cons l ls ih =>
    have hl := h l (by simp)
    rw [lines, unlines_cons, linesGo_append hl.1]
    have : stripCR l = l := by simp [stripCR, hl.2]
    simp only [List.reverse_nil, List.nil_append, this]
    rw [← lines, ih (fun x hx => h x (by simp [hx]))]

theorem linesGo_no_nl (acc s : List Char) (ha : '\n' ∉ acc) : ∀ l ∈ linesGo acc s, '\n' ∉ l := by
  induction s generalizing acc with
  | nil =>
    intro l hl
    simp only [linesGo] at hl
    split at hl
    · simp at hl
    · simp at hl; subst hl; simpa using ha
  | cons c cs ih =>
    intro l hl
    simp only [linesGo] at hl
    split at hl
    · rcases List.mem_cons.mp hl with rfl | hl
      · simp only [stripCR]
        split
        · intro hm; exact ha (by simpa using (List.dropLast_sublist _).subset hm)
        · simpa using ha
      · exact ih [] (by simp) l hl
    · rename_i hc
      exact ih (c :: acc) (by simp [ha, eq_comm, hc]) l hl

theorem lines_no_nl (s : List Char) : ∀ l ∈ lines s, '\n' ∉ l := linesGo_no_nl [] s (by simp)

theorem splitOn_unlines {ls : List (List Char)} (h : ∀ l ∈ ls, '\n' ∉ l) (tail : List Char) :
    splitOn '\n' (unlines ls ++ tail) = ls ++ splitOn '\n' tail := by
  induction ls with
  | nil => simp [unlines]
  | cons l ls ih =>
    rw [unlines_cons, List.append_assoc, List.cons_append,
      splitOn_append_sep (h l (by simp)), ih (fun x hx => h x (by simp [hx]))]
    rfl

/-! ### Fence lengths -/

theorem foldl_max_ge (l : List Nat) (a : Nat) : a ≤ l.foldl max a ∧ ∀ x ∈ l, x ≤ l.foldl max a := by
  induction l generalizing a with
  | nil => simp
  | cons y ys ih =>
    have h := ih (max a y)
    refine ⟨by simp; omega, ?_⟩
    intro x hx
    rcases List.mem_cons.mp hx with rfl | hx
    · have := h.1; simp; omega
    · exact h.2 x hx

theorem leadingFence_lt (m : Nat) (fc : Char) (content : List Char) {l : List Char}
    (h : l ∈ lines content) : leadingFence fc l < fenceLength m fc content := by
  have := (foldl_max_ge ((lines content).map (leadingFence fc)) 0).2 (leadingFence fc l)
    (List.mem_map_of_mem h)
  simp only [fenceLength]; omega

theorem dropWhile_spaces_trimStart {l : List Char} {c : Char}
    (h : (l.dropWhile (· = ' ')).head? = some c) (hc : isWs c = false) :
    trimStart l = l.dropWhile (· = ' ') := by
  induction l with
  | nil => simp at h
  | cons x xs ih =>
    rw [List.dropWhile_cons] at h ⊢
    by_cases hx : x = ' '
    · subst hx
      simp only [decide_true, if_true] at h ⊢
      have : trimStart (' ' :: xs) = trimStart xs := by
        simp [trimStart, List.dropWhile_cons, show isWs ' ' = true by decide]
      rw [this, ih h]
    · simp only [hx, decide_false, Bool.false_eq_true, if_false, List.head?_cons,
        Option.some.injEq] at h ⊢
      subst h
      simp [trimStart, List.dropWhile_cons, hc]

theorem not_isClosing {fc : Char} (hfc : isWs fc = false) {n : Nat} (hn : 0 < n) {l : List Char}
    (h : leadingFence fc l < n) : isClosing fc n l = false := by
  simp only [isClosing]
  by_cases hb : (l.dropWhile (· = ' ')).head? = some fc
  · have := dropWhile_spaces_trimStart hb hfc
    rw [leadingFence, this] at h
    have : ¬ n ≤ (List.takeWhile (fun x => decide (x = fc)) (l.dropWhile (· = ' '))).length := by
      omega
    simp [this]
  · have : List.takeWhile (fun x => decide (x = fc)) (l.dropWhile (· = ' ')) = [] := by
      generalize l.dropWhile (· = ' ') = m at hb ⊢
      cases m with
      | nil => rfl
      | cons y ys =>
        have : y ≠ fc := by simpa using hb
        simp [List.takeWhile_cons, this]
    rw [this]
    have : ¬ n ≤ 0 := by omega
    simp [this]

theorem readBody_append {c : Char} {n : Nat} {ls : List (List Char)}
    (h : ∀ l ∈ ls, isClosing c n l = false) {cl : List Char} (hc : isClosing c n cl = true)
    (rest : List (List Char)) : readBody c n (ls ++ cl :: rest) = (ls, rest) := by
  induction ls with
  | nil => simp [readBody, hc]
  | cons l ls ih =>
    have h1 := h l (by simp)
    have h2 := ih (fun x hx => h x (by simp [hx]))
    simp [readBody, h1, h2]

theorem isClosing_fence {fc : Char} (hfc : fc ≠ ' ') (n : Nat) :
    isClosing fc n (List.replicate n fc) = true := by
  have h1 : (List.replicate n fc).dropWhile (· = ' ') = List.replicate n fc := by
    cases n with
    | zero => rfl
    | succ k => simp [List.replicate_succ, List.dropWhile_cons, hfc]
  have h2 : ((List.replicate n fc).takeWhile (· = ' ')) = [] := by
    cases n with
    | zero => rfl
    | succ k => simp [List.replicate_succ, List.takeWhile_cons, hfc]
  have h3 : ((List.replicate n fc).takeWhile (fun x => decide (x = fc))) = List.replicate n fc := by
    induction n with
    | zero => rfl
    | succ k ih => simp [List.replicate_succ, List.takeWhile_cons]
  simp [isClosing, h1, h2, h3]

theorem takeWhile_replicate_append {c : Char} (n : Nat) {s : List Char} (h : s.head? ≠ some c) :
    (List.replicate n c ++ s).takeWhile (fun x => decide (x = c)) = List.replicate n c := by
  induction n with
  | zero =>
    cases s with
    | nil => rfl
    | cons x xs => have : x ≠ c := by simpa using h
                   simp [List.takeWhile_cons, this]
  | succ k ih => simp [List.replicate_succ, List.takeWhile_cons, ih]

theorem readOpening_fence {fc : Char} (hfc : fc = '`' ∨ fc = '~') {n : Nat} (hn : 3 ≤ n)
    {s : List Char} (hs : s.head? ≠ some fc) (ht : fc = '`' → '`' ∉ s) :
    readOpening (List.replicate n fc ++ s) = some ⟨fc, n, strip s⟩ := by
  obtain ⟨k, rfl⟩ : ∃ k, n = k + 1 := ⟨n - 1, by omega⟩
  have hsp : fc ≠ ' ' := by rcases hfc with rfl | rfl <;> decide
  have h1 : (List.replicate (k + 1) fc ++ s).dropWhile (· = ' ') = List.replicate (k + 1) fc ++ s := by
    simp [List.replicate_succ, List.dropWhile_cons, hsp]
  have h2 : (List.replicate (k + 1) fc ++ s).takeWhile (· = ' ') = [] := by
    simp [List.replicate_succ, List.takeWhile_cons, hsp]
  have h3 := takeWhile_replicate_append (c := fc) (k + 1) hs
  have h4 : '`' ∉ s → '`' ∉ strip s := by
    intro h hm
    apply h
    simp only [strip, List.mem_reverse] at hm
    have := List.dropWhile_sublist (p := isBlankChar) |>.subset hm
    simp only [List.mem_reverse] at this
    exact (List.dropWhile_sublist (p := isBlankChar)).subset this
  have h5 : readOpening (List.replicate (k + 1) fc ++ s) =
      (if (fc = '`' ∧ '`' ∉ strip s ∨ fc = '~') ∧ 3 ≤ k + 1 then some ⟨fc, k + 1, strip s⟩
        else none) := by
    rw [readOpening]
    simp only [h1, h2]
    simp only [List.length_nil, Nat.not_lt_zero, if_false]
    conv => lhs; rw [show List.replicate (k + 1) fc ++ s = fc :: (List.replicate k fc ++ s) from rfl]
    simp only
    rw [show fc :: (List.replicate k fc ++ s) = List.replicate (k + 1) fc ++ s from rfl, h3]
    simp
  rw [h5, if_pos]
  refine ⟨?_, hn⟩
  rcases hfc with h | h
  · exact Or.inl ⟨h, h4 (ht h)⟩
  · exact Or.inr h

/-! ### The serializers as lists of lines -/

/-- What follows the fence on the opening line. -/
def infoPart (cx : Cx) (info : List Char) : List Char :=
  if outputInfo cx info = [] then []
  else (if cx.opts.spaceAfterFence then [' '] else []) ++ outputInfo cx info

theorem openFence_eq (cx : Cx) (fence info : List Char) :
    openFence cx fence info = fence ++ infoPart cx info ++ ['\n'] := rfl

/-- The fence of `serialize_code_block`. -/
def fenceOf (cx : Cx) (content : List Char) : List Char :=
  List.replicate (fenceLength cx.opts.minFenceLength cx.opts.fenceChar content) cx.opts.fenceChar

/-- A line in a block quote. -/
def quoteLine (l : List Char) : List Char := (if l = [] then ['>'] else ['>', ' ']) ++ l

theorem codeLine_false : codeLine false = fun l => l ++ ['\n'] := by
  funext l; simp [codeLine]

theorem codeLine_true : codeLine true = fun l => quoteLine l ++ ['\n'] := by
  funext l; simp [codeLine, quoteLine]

/-- A line with an indent, unless it is empty. -/
def indentLine (indent l : List Char) : List Char := if l = [] then [] else indent ++ l

theorem codeLineIndented_fun (quote : Bool) (indent : List Char) : codeLineIndented quote indent =
    fun l => (if quote then ['>', ' '] else []) ++ (indentLine indent l ++ ['\n']) := by
  funext l; simp [codeLineIndented, indentLine]

theorem codeBlockText_false (cx : Cx) (info content : List Char) :
    codeBlockText cx false info content =
      unlines ((fenceOf cx content ++ infoPart cx info) :: lines content ++ [fenceOf cx content]) := by
  simp only [codeBlockText, openFence_eq, unlines, fenceOf]
  simp [List.flatMap_def, codeLine_false, List.map_map, Function.comp_def]

theorem codeBlockText_true (cx : Cx) (info content : List Char) :
    codeBlockText cx true info content =
      unlines ((['>', ' '] ++ fenceOf cx content ++ infoPart cx info) ::
        (lines content).map quoteLine ++ [['>', ' '] ++ fenceOf cx content]) := by
  simp only [codeBlockText, openFence_eq, unlines, fenceOf]
  simp [List.flatMap_def, codeLine_true, List.map_map, Function.comp_def]

theorem codeBlockIndentedText_eq (cx : Cx) (quote : Bool) (info content indent : List Char) :
    codeBlockIndentedText cx quote info content indent =
      unlines ((fenceOf cx content ++ infoPart cx info) ::
        (lines content).map (fun l => (if quote then ['>', ' '] else []) ++ indentLine indent l) ++
        [(if quote then ['>', ' '] else []) ++ indent ++ fenceOf cx content]) := by
  simp only [codeBlockIndentedText, openFence_eq, unlines, fenceOf]
  simp [List.flatMap_def, codeLineIndented_fun, List.map_map, Function.comp_def]

/-- The fence of `serialize_code_block_with_indent`. -/
def detailsFence (cx : Cx) (content : List Char) : List Char :=
  if containsSub (List.replicate cx.opts.minFenceLength cx.opts.fenceChar) content then
    List.replicate (cx.opts.minFenceLength + 1) cx.opts.fenceChar
  else List.replicate cx.opts.minFenceLength cx.opts.fenceChar

theorem codeBlockWithIndentText_eq (cx : Cx) (info content indent : List Char) :
    codeBlockWithIndentText cx info content indent =
      unlines ((detailsFence cx content ++ infoPart cx info) ::
        (lines content).map (indentLine indent) ++
        (if content.getLast? ≠ some '\n' ∧ content ≠ [] then [[]] else []) ++
        [indent ++ detailsFence cx content]) := by
  simp only [codeBlockWithIndentText, openFence_eq, unlines, detailsFence, List.replicate_succ]
  split <;> split <;>
    simp [List.flatMap_def, codeLineIndented_fun, List.map_map, Function.comp_def]

theorem outputInfo_eq (cx : Cx) (info : List Char) :
    outputInfo cx info = shownInfo cx.opts.defaultLanguage info := by
  by_cases h : trim info = []
  · simp only [outputInfo, parseCodeInfo, shownInfo, h, if_true]
    by_cases h2 : cx.opts.defaultLanguage = [] <;> simp [h2]
  · simp [outputInfo, parseCodeInfo, shownInfo, h]

/-- The condition under which an info string can follow the fence. -/
abbrev InfoOk (cx : Cx) (info : List Char) : Prop :=
  InfoFits cx.opts.fenceChar cx.opts.spaceAfterFence (shownInfo cx.opts.defaultLanguage info)

theorem strip_blank_cons {c : Char} (h : isBlankChar c = true) (s : List Char) :
    strip (c :: s) = strip s := by
  simp [strip, List.dropWhile_cons, h]

theorem strip_infoPart (cx : Cx) (info : List Char) :
    strip (infoPart cx info) = strip (shownInfo cx.opts.defaultLanguage info) := by
  simp only [infoPart, outputInfo_eq]
  split
  · rename_i h; rw [h]
  · split
    · exact strip_blank_cons (by decide) _
    · rfl

theorem readOpening_code {cx : Cx} {info : List Char}
    (hfc : cx.opts.fenceChar = '`' ∨ cx.opts.fenceChar = '~') (hi : InfoOk cx info)
    {n : Nat} (hn : 3 ≤ n) :
    readOpening (List.replicate n cx.opts.fenceChar ++ infoPart cx info) =
      some ⟨cx.opts.fenceChar, n, strip (shownInfo cx.opts.defaultLanguage info)⟩ := by
  rw [← strip_infoPart]
  apply readOpening_fence hfc hn
  · simp only [infoPart, outputInfo_eq]
    split
    · simp
    · split
      · rcases hfc with h | h <;> simp [h]
      · rename_i h
        simpa using hi.2.2 (by simpa using h)
  · intro h
    simp only [infoPart, outputInfo_eq]
    split
    · simp
    · split
      · simpa using hi.2.1 h
      · simpa using hi.2.1 h

theorem infoPart_no_nl {cx : Cx} {info : List Char} (hi : InfoOk cx info) :
    '\n' ∉ infoPart cx info := by
  simp only [infoPart, outputInfo_eq]
  split
  · simp
  · split <;> simpa using hi.1

theorem replicate_no_nl {fc : Char} (hfc : fc = '`' ∨ fc = '~') (n : Nat) :
    '\n' ∉ List.replicate n fc := by
  intro h
  have := List.eq_of_mem_replicate h
  rcases hfc with rfl | rfl <;> simp at this

theorem fence_ws {fc : Char} (hfc : fc = '`' ∨ fc = '~') : isWs fc = false := by
  rcases hfc with rfl | rfl <;> decide

theorem fence_sp {fc : Char} (hfc : fc = '`' ∨ fc = '~') : fc ≠ ' ' := by
  rcases hfc with rfl | rfl <;> decide

/-- Reading a fence, lines that do not close it, and the fence again. -/
theorem readFenced_code {cx : Cx} {info : List Char}
    (hfc : cx.opts.fenceChar = '`' ∨ cx.opts.fenceChar = '~') (hi : InfoOk cx info)
    {n : Nat} (hn : 3 ≤ n) {ls : List (List Char)}
    (hls : ∀ l ∈ ls, leadingFence cx.opts.fenceChar l < n) (rest : List (List Char)) :
    readFenced ((List.replicate n cx.opts.fenceChar ++ infoPart cx info) ::
      (ls ++ List.replicate n cx.opts.fenceChar :: rest)) =
      some (strip (shownInfo cx.opts.defaultLanguage info), ls, rest) := by
  simp only [readFenced, readOpening_code hfc hi hn, Option.map_some]
  rw [readBody_append (fun l hl => not_isClosing (fence_ws hfc) (by omega) (hls l hl))
    (isClosing_fence (fence_sp hfc) n)]

theorem strip_of_ends {s : List Char} (h1 : ∀ c ∈ s.head?, isBlankChar c = false)
    (h2 : ∀ c ∈ s.getLast?, isBlankChar c = false) : strip s = s := by
  have hd : ∀ l : List Char, (∀ c ∈ l.head?, isBlankChar c = false) →
      l.dropWhile isBlankChar = l := by
    intro l h
    cases l with
    | nil => rfl
    | cons x xs => simp [List.dropWhile_cons, h x (by simp)]
  rw [strip, hd s h1, hd s.reverse (by simpa using h2), List.reverse_reverse]

theorem not_blank_of_not_ws {c : Char} (h : isWs c = false) : isBlankChar c = false := by
  by_cases h1 : c = ' '
  · subst h1; exact absurd h (by decide)
  · by_cases h2 : c = '\t'
    · subst h2; exact absurd h (by decide)
    · simp [isBlankChar, h1, h2]

theorem strip_shownInfo {d : List Char} (hd : strip d = d) (info : List Char) :
    strip (shownInfo d info) = shownInfo d info := by
  rw [shownInfo]
  split
  · exact hd
  · exact strip_of_ends (fun c hc => not_blank_of_not_ws (trim_head info c hc))
      (fun c hc => not_blank_of_not_ws (trim_getLast info c hc))

theorem unquote_quoteLine (l : List Char) : unquote (quoteLine l) = some l := by
  cases l <;> rfl

theorem unquote_prefix (l : List Char) : unquote ('>' :: ' ' :: l) = some l := rfl

theorem mapM_map_some {α β γ : Type} (f : β → Option γ) (g : α → β) (h : α → γ)
    (hf : ∀ a, f (g a) = some (h a)) (l : List α) : (l.map g).mapM f = some (l.map h) := by
  induction l with
  | nil => rfl
  | cons a as ih => simp [hf, ih]

theorem unindent_spaces (n : Nat) (l : List Char) : unindent n (spaces n ++ l) = some l := by
  simp [unindent, spaces, List.take_append, List.drop_append]

theorem unindent_nil (n : Nat) : unindent n [] = some [] := by simp [unindent]

theorem unindent_indentLine (n : Nat) (l : List Char) :
    unindent n (indentLine (spaces n) l) = some l := by
  rw [indentLine]; split
  · rename_i h; rw [h]; exact unindent_nil n
  · exact unindent_spaces n l

theorem foldl_max_attained (l : List Nat) : ∀ a, l.foldl max a = a ∨ l.foldl max a ∈ l := by
  induction l with
  | nil => intro a; exact Or.inl rfl
  | cons x xs ih =>
    intro a
    rw [List.foldl_cons]
    rcases ih (max a x) with h | h
    · rw [h]
      rcases Nat.le_total a x with hx | hx
      · right; simp [Nat.max_eq_right hx]
      · left; exact Nat.max_eq_left hx
    · right; exact List.mem_cons_of_mem _ h

/-! ### Formatters -/

theorem codeContent_nil {cx : Cx} (h : cx.opts.codeFormatters = [] ∧ cx.callback = none) (info literal : List Char) :
    codeContent cx info literal = (literal, none) := by
  simp [codeContent, tryFormatCode, h.1, h.2]

theorem serCodeBlock_output (cx : Cx) (info literal : List Char) (st : St) :
    (serCodeBlock cx info literal st).output = st.output ++
      codeBlockText cx st.inBlockQuote info (codeContent cx info literal).1 := by
  simp only [serCodeBlock, St.push]
  cases (codeContent cx info literal).2 <;> rfl

theorem serCodeBlockIndented_output (cx : Cx) (info literal indent : List Char) (st : St) :
    (serCodeBlockIndented cx info literal indent st).output = st.output ++
      codeBlockIndentedText cx st.inBlockQuote info (codeContent cx info literal).1 indent := by
  simp only [serCodeBlockIndented, St.push]
  cases (codeContent cx info literal).2 <;> rfl

theorem serCodeBlockWithIndent_output (cx : Cx) (info literal indent : List Char) (st : St) :
    (serCodeBlockWithIndent cx info literal indent st).output = st.output ++
      codeBlockWithIndentText cx info (codeContent cx info literal).1 indent := by
  simp only [serCodeBlockWithIndent, St.push]
  cases (codeContent cx info literal).2 <;> rfl

/-! ### Formatters -/

theorem wordsGo_ws {t : List Char} (h : ∀ c ∈ t, isWs c = true) (b : List Char) :
    wordsGo [] (t ++ b) = wordsGo [] b := by
  induction t with
  | nil => rfl
  | cons c cs ih =>
    rw [List.cons_append, wordsGo, if_pos (h c (by simp)), if_pos rfl,
      ih (fun d hd => h d (by simp [hd]))]

theorem wordsGo_append_ws {t : List Char} (h : ∀ c ∈ t, isWs c = true) (s : List Char) :
    ∀ acc, wordsGo acc (s ++ t) = wordsGo acc s := by
  induction s with
  | nil =>
    intro acc
    cases t with
    | nil => rfl
    | cons c cs =>
      have := wordsGo_ws (t := cs) (fun d hd => h d (by simp [hd])) []
      rw [List.append_nil] at this
      rw [List.nil_append, wordsGo.eq_2, if_pos (h c (by simp)), this]
      by_cases ha : acc = [] <;> simp [ha, wordsGo]
  | cons x xs ih =>
    intro acc
    simp only [List.cons_append, wordsGo, ih]

theorem splitWs_trim (s : List Char) : splitWs (trim s) = splitWs s := by
  obtain ⟨a, b, ha, hb, e⟩ := trim_append s
  conv => rhs; rw [e]
  rw [splitWs, splitWs, wordsGo_append_ws hb, wordsGo_ws ha]

theorem wordsGo_acc {acc : List Char} (h : acc ≠ []) (s : List Char) : wordsGo acc s ≠ [] := by
  induction s generalizing acc with
  | nil => simp [wordsGo, h]
  | cons c cs ih =>
    rw [wordsGo]
    split
    · simp [h]
    · exact ih (by simp)

theorem splitWs_ne_nil {s : List Char} (h : trim s ≠ []) : splitWs s ≠ [] := by
  rw [← splitWs_trim]
  have := trim_head s
  cases ht : trim s with
  | nil => exact absurd ht h
  | cons c cs =>
    rw [ht] at this
    have hc : isWs c = false := this c (by simp)
    rw [splitWs, wordsGo, hc]
    exact wordsGo_acc (by simp) _

theorem wordsGo_no_nil (s : List Char) : ∀ acc, [] ∉ wordsGo acc s := by
  induction s with
  | nil => intro acc; by_cases h : acc = [] <;> simp [wordsGo, h, eq_comm (a := ([] : List Char))]
  | cons c cs ih =>
    intro acc
    rw [wordsGo]
    split
    · split
      · exact ih _
      · rename_i h
        simp only [List.mem_cons, not_or]
        exact ⟨by simpa [eq_comm (a := ([] : List Char))] using h, ih _⟩
    · exact ih _

theorem codeLanguage_eq (cx : Cx) (info : List Char) :
    codeLanguage cx info = languageOf cx.opts.defaultLanguage info := by
  rw [codeLanguage, parseCodeInfo, languageOf]
  by_cases h : trim info = []
  · have : splitWs info = [] := by rw [← splitWs_trim, h]; rfl
    simp [h, this]
  · have h2 := splitWs_ne_nil h
    have h3 : [] ∉ splitWs info := wordsGo_no_nil info []
    simp only [h, if_false, splitWs_trim]
    cases hw : splitWs info with
    | nil => exact absurd hw h2
    | cons w ws =>
      rw [hw] at h3
      have : w ≠ [] := by intro h; simp [h] at h3
      simp [this]

theorem any_word (k : List Char) (ws : List (List Char)) :
    ws.any (fun w => decide (w = k)) = decide (k ∈ ws) := by
  induction ws with
  | nil => simp
  | cons w ws ih =>
    rw [List.any_cons, ih]
    by_cases h : w = k <;> simp [h, eq_comm (a := k)]

theorem noFormat_eq (info : List Char) :
    (parseCodeInfo info).2.2 = decide ("hongdown-no-format".toList ∈ splitWs info) := by
  rw [show "hongdown-no-format".toList = noFormatKeyword from rfl, parseCodeInfo]
  generalize noFormatKeyword = k
  by_cases h : trim info = []
  · have : splitWs info = [] := by rw [← splitWs_trim, h]; rfl
    simp [h, this]
  · simp only [h, if_false, splitWs_trim]
    exact any_word k _

theorem codeContent_eq (cx : Cx) (hcb : cx.callback = none) (info literal : List Char) :
    codeContent cx info literal =
      match chosenFormatter cx.opts.codeFormatters cx.opts.defaultLanguage info with
      | none => (literal, none)
      | some f => match cx.runFormatter f literal with
        | .ok s => (s, none)
        | .error e => (literal, some (formatterWarning f.command
            (languageOf cx.opts.defaultLanguage info) e)) := by
  rw [codeContent, codeLanguage_eq, noFormat_eq, chosenFormatter]
  generalize "hongdown-no-format".toList = k
  by_cases h1 : k ∈ splitWs info
  · simp [h1]
  · by_cases h2 : languageOf cx.opts.defaultLanguage info = []
    · simp [h2]
    · simp only [ne_eq, h1, h2, not_false_eq_true, decide_false, and_self, if_true, or_self,
        if_false, tryFormatCode, hcb]
      cases cx.opts.codeFormatters.lookup (languageOf cx.opts.defaultLanguage info) with
      | none => rfl
      | some f =>
        simp only []
        cases cx.runFormatter f literal <;> rfl

theorem infix_warning (cmd : List (List Char)) (l e : List Char) :
    l <:+: formatterWarning cmd l e := by
  unfold formatterWarning
  generalize "code formatter '".toList = a
  generalize "' failed for language '".toList = b
  generalize "': ".toList = c
  exact ⟨a ++ joinWith [' '] cmd ++ b, c ++ e, by simp⟩

/-! ### Definition lists -/

theorem readBody_short {c : Char} {n : Nat} {ls : List (List Char)}
    (h : ∃ l ∈ ls, isClosing c n l = true) (rest : List (List Char)) :
    (readBody c n (ls ++ rest)).1.length < ls.length := by
  induction ls with
  | nil => simp at h
  | cons l ls ih =>
    simp only [List.cons_append, readBody]
    split
    · simp
    · rename_i hl
      obtain ⟨x, hx, hx2⟩ := h
      rcases List.mem_cons.mp hx with rfl | hx
      · exact absurd hx2 hl
      · have := ih ⟨x, hx, hx2⟩
        simp; omega

theorem containsSub_append (p a b : List Char) : containsSub p (a ++ (p ++ b)) = true := by
  induction a with
  | nil =>
    cases h : p ++ b with
    | nil =>
      have : p = [] := (List.append_eq_nil_iff.mp h).1
      simp [this, containsSub]
    | cons c cs =>
      rw [List.nil_append, containsSub, ← h]
      simp
  | cons x xs ih => simp [containsSub, ih]

theorem run_split {c : Char} {n : Nat} {s : List Char}
    (h : n ≤ (s.takeWhile (fun x => decide (x = c))).length) :
    ∃ t, s = List.replicate n c ++ t := by
  induction n generalizing s with
  | zero => exact ⟨s, rfl⟩
  | succ k ih =>
    cases s with
    | nil => simp at h
    | cons x xs =>
      by_cases hx : x = c
      · subst hx
        obtain ⟨t, ht⟩ := ih (s := xs) (by simpa [List.takeWhile_cons] using h)
        exact ⟨t, by rw [List.replicate_succ, List.cons_append, ← ht]⟩
      · simp [List.takeWhile_cons, hx] at h

theorem containsSub_of_closing {c : Char} {n : Nat} {ls : List (List Char)} {l : List Char}
    (hl : l ∈ ls) (h : isClosing c n l = true) :
    containsSub (List.replicate n c) (unlines ls) = true := by
  simp only [isClosing, Bool.and_eq_true, decide_eq_true_eq] at h
  obtain ⟨t, ht⟩ := run_split h.1.2
  obtain ⟨a, b, rfl⟩ := List.append_of_mem hl
  have : l = l.takeWhile (· = ' ') ++ (List.replicate n c ++ t) := by
    rw [← ht, List.takeWhile_append_dropWhile]
  have e : unlines (a ++ l :: b) = (unlines a ++ l.takeWhile (· = ' ')) ++
      (List.replicate n c ++ (t ++ '\n' :: unlines b)) := by
    rw [show unlines (a ++ l :: b) = unlines a ++ unlines (l :: b) by simp [unlines], unlines_cons]
    conv => lhs; rw [this]
    simp
  rw [e]; exact containsSub_append _ _ _

theorem isClosing_mono {c : Char} {n m : Nat} (h : n ≤ m) {l : List Char}
    (hl : isClosing c m l = true) : isClosing c n l = true := by
  simp only [isClosing, Bool.and_eq_true, decide_eq_true_eq] at hl ⊢
  exact ⟨⟨hl.1.1, by omega⟩, hl.2⟩

theorem unlines_getLast (ls : List (List Char)) (h : unlines ls ≠ []) :
    (unlines ls).getLast? = some '\n' := by
  induction ls with
  | nil => simp [unlines] at h
  | cons l ls ih =>
    rw [unlines_cons]
    by_cases h2 : unlines ls = []
    · rw [h2, List.getLast?_append]; simp
    · rw [List.getLast?_append, List.getLast?_cons, ih h2]; simp

end Hongdown
