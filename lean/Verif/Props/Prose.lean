import Verif.Lemmas.Prose
import Verif.Props.Wrap
import Verif.Props.Lists

/-!
# C109: prose is wrapped at the line width, and code spans are kept in one piece

STYLE.md:406-432: "Wrap prose at approximately 80 display columns", "Words that exceed the line width limit are not broken".
-/

namespace Hongdown.Props
open Model Spec

/-- **C109 (partial).** Full statement: for all text of words, see `c109_bracket_false` and `c109_backquote_false`. Text without
backquotes and opening brackets is wrapped: a line that is longer than the line width is the prefix and one word. -/
theorem c109_prose_partial (w : List Char → Nat) (hw : WidthOk w) (text pfx : List Char) (lw : Nat)
    (hp : PfxOk pfx) (hp' : '\n' ∉ pfx) (hb : ∀ c ∈ pfx, isWs c = true) (hs : ∀ s ∈ splitOn '\n' text, SoftOk s)
    (h1 : '`' ∉ text) (h2 : '[' ∉ text) :
    ∀ l ∈ splitOn '\n' (wrapText w text pfx lw),
      w (trimEnd l) ≤ lw ∨ ∃ u, ' ' ∉ u ∧ trimEnd l = trimEnd (pfx ++ u) := by
  intro l hl
  rcases c12_wrap_text_width w hw text pfx lw hp hp' hs l hl with h | ⟨u, hu, he⟩
  · exact .inl h
  · refine .inr ⟨u, ?_, he⟩
    have key : ∀ c : Char, isWs c = false → c ∈ visible [c] → c ∉ text → c ∉ u := by
      intro c hc hv hn hcu
      have k1 : c ∈ trimEnd (pfx ++ u) := mem_trimEnd_of hc (List.mem_append_right _ hcu)
      rw [← he] at k1
      have k2 : c ∈ l := by
        rw [trimEnd, List.mem_reverse] at k1
        exact List.mem_reverse.mp ((List.dropWhile_sublist _).subset k1)
      have k3 : c ∈ wrapText w text pfx lw := mem_splitOn_subset hl k2
      have k4 : c ∈ visible (wrapText w text pfx lw) := by
        rw [visible, List.mem_filter] at hv ⊢
        exact ⟨k3, hv.2⟩
      rw [c11_wrap_text_visible w text pfx lw hb, visible, List.mem_filter] at k4
      exact hn k4.1
    rw [Unbreakable, bareGo_plain u (key '`' (by decide) (by decide) h1) (key '[' (by decide) (by decide) h2)] at hu
    exact hu

example : wrapText List.length "some text, some (longer) words: internationalization".toList "  ".toList 14 =
    "  some text,\n  some\n  (longer)\n  words:\n  internationalization".toList := by decide +kernel

/-- What is written for a paragraph that is one line of text in the source. -/
def proseOutput (t : List Char) : List Char :=
  (formatDoc (withSource codeCx (t ++ ['\n'])) (.mk .document ⟨1, 1, 1, t.length⟩ [.mk .paragraph ⟨1, 1, 1, t.length⟩
    [.mk (.text t) ⟨1, 1, 1, t.length⟩ []]])).output

def intervalText : List Char :=
  "The function is defined on the half-open interval [0, 1) only, and the limit at the end of that interval does not exist, as one can see.".toList

/-- **C109 is false** of text with an opening bracket that is not closed: the rest of the paragraph is not wrapped, although no
word is long. -/
theorem c109_bracket_false : ¬ ∀ t : List Char,
    (∀ c ∈ t, c.isAlphanum = true ∨ c ∈ " -.,[)".toList) → (∀ w ∈ words t, w.length ≤ 10) →
    ∀ l ∈ splitOn '\n' (proseOutput t), l.length ≤ codeCx.opts.lineWidth := by
  intro h
  have := h intervalText (by decide +kernel) (by decide +kernel)
    "[0, 1) only, and the limit at the end of that interval does not exist, as one can see.".toList
  exact absurd this (by decide +kernel)

/-- **C109 is false** of text with a backquote. -/
theorem c109_backquote_false : ¬ ∀ t : List Char,
    (∀ c ∈ t, c.isAlphanum = true ∨ c ∈ " -.,`".toList) → (∀ w ∈ words t, w.length ≤ 10) →
    ∀ l ∈ splitOn '\n' (proseOutput t), l.length ≤ codeCx.opts.lineWidth := by
  intro h
  have := h "On this keyboard the ` key is hard to find, so that most people choose another key for it, as you can see in the table.".toList
    (by decide +kernel) (by decide +kernel)
    "\\` key is hard to find, so that most people choose another key for it, as you can see in the table.".toList
  exact absurd this (by decide +kernel)

/-- **C109.** A code span between single backquotes that is outside brackets and other code spans is kept as it is: it is
neither broken nor are its blanks lost, whatever surrounds it. -/
theorem c109_code_partial (w : List Char → Nat) (a c b pfx : List Char) (lw : Nat) (ha : EndsOutside a) (hc : '`' ∉ c)
    (hn : nul ∉ a ++ ('`' :: c ++ ['`']) ++ b) (hl : '\n' ∉ a ++ ('`' :: c ++ ['`']) ++ b) :
    '`' :: c ++ ['`'] <:+: wrapText w (a ++ ('`' :: c ++ ['`']) ++ b) pfx lw := by
  have e : wrapText w (a ++ ('`' :: c ++ ['`']) ++ b) pfx lw = wrapSingle w (a ++ ('`' :: c ++ ['`']) ++ b) pfx pfx lw := by
    rw [wrapText]
    simp only [splitOn_of_not_mem hl, List.length_singleton, if_true, wrapSegment, splitOn_of_not_mem hn]
  rw [e]
  refine infix_wrapSingle ?_ (by simp) w pfx pfx lw (tok_span a c b ha hc)
  intro x hx
  rw [List.getLast?_concat, Option.mem_some] at hx
  subst hx
  decide

example : wrapText List.length "see `a  b` and `c   d`".toList [] 8 = "see\n`a  b`\nand\n`c   d`".toList := by decide +kernel

/-- What is written for a paragraph that is one line of the source, text and then a code span between two backquotes. -/
def codeOutput (t c : List Char) : List Char :=
  let n := t.length
  let m := c.length + 4
  (formatDoc (withSource codeCx (t ++ "``".toList ++ c ++ "``\n".toList)) (.mk .document ⟨1, 1, 1, n + m⟩
    [.mk .paragraph ⟨1, 1, 1, n + m⟩ [.mk (.text t) ⟨1, 1, 1, n⟩ [], .mk (.code c) ⟨1, n + 1, 1, n + m⟩ []]])).output

/-- **C109 is false** of code spans between two backquotes: with line breaks taken for spaces, as CommonMark has it, a code span
is not always what it was. -/
theorem c109_double_false : ¬ ∀ t c : List Char, (∀ x ∈ t, x.isAlpha = true ∨ x = ' ') →
    (∀ x ∈ c, x.isAlpha = true ∨ x ∈ " `".toList) →
    c <:+: (codeOutput t c).map (fun x => if x = '\n' then ' ' else x) := by
  intro h
  have := h "Words words words words words words words words words words words words ".toList "x  `y".toList
    (by decide +kernel) (by decide +kernel)
  exact absurd this (by decide +kernel)

example : codeOutput "Words words words words words words words words words words words words ".toList "x  `y".toList =
    "Words words words words words words words words words words words words ``x\n`y``\n".toList := by decide +kernel

end Hongdown.Props
