import Verif.Lemmas.Undefined
import Verif.Lemmas.DocRun
import Verif.Props.Document

/-!
# C86: references without a definition are reported

In a tree without directives. What directives suppress is C26.
-/

namespace Hongdown.Props
open Model Spec

theorem ranges_none : ∀ {cs : List Node}, (∀ n ∈ cs, n.directive = none) → disabledRanges cs = []
  | [], _ => rfl
  | n :: ns, h => by
    rw [disabledRanges, ranges_none fun m hm => h m (by simp [hm])]
    simp [disabledRange, h n (by simp)]

/-- **C86 (partial).** Full statement: with references as a Markdown reader sees them in the
place of `Unresolved` (`c86_escaped_false`, `c86_missed_false`, `c86_code_false`). The texts of the
document outside code and HTML are searched for references in order. Exactly those are
reported, once each and on the line of the text, whose label is neither a footnote nor an alert,
is on no line that looks like a definition or an abbreviation, and whose first occurrence on the
source line is not escaped by a single backslash. -/
theorem c86_exact_partial (cx : Cx) (cs : List Node) (hd : ∀ n ∈ cs, n.directive = none)
    (hs : cx.sourceLines ≠ []) :
    ∃ refs, RefsOf (proseOfList cs) refs ∧ Reports cx.sourceLines refs (undefinedWarnings cx cs) := by
  obtain ⟨refs, h1, h2⟩ := walkRefsList_walked cx.sourceLines cs
  refine ⟨refs, h1, ?_⟩
  rw [undefinedWarnings, if_neg hs, ranges_none hd]
  have e : ∀ ws : List Warning, ws.filter (fun w => !inRanges w.line []) = ws := fun ws =>
    List.filter_eq_self.mpr fun _ _ => rfl
  rw [e]
  exact h2

/-- **C86.** What is found in the texts and what is reported are determined by these descriptions. -/
theorem c86_determined (lines : List (List Char)) (ts : List (Nat × List Char))
    (refs refs' : List (Nat × BracketRef)) (ws ws' : List Warning) (h1 : RefsOf ts refs)
    (h1' : RefsOf ts refs') (h2 : Reports lines refs ws) (h2' : Reports lines refs' ws') :
    refs = refs' ∧ ws = ws' := by
  obtain rfl := refsOf_unique h1 h1'
  exact ⟨rfl, reports_unique h2 h2'⟩

/-- **C86.** A run over the document gives these warnings first, before those of tables and code. -/
theorem c86_document (cx : Cx) (p : Pos) (cs : List Node) (h : wellPlacedDoc cs = true) :
    undefinedWarnings cx cs <+: (formatDoc cx (.mk .document p cs)).warnings := by
  obtain ⟨hk, hb⟩ := blocks_of (cx := cx) h
  have g := (serDocument_grows_from hk hb {}).warnings
  rw [serKids_nodes] at g
  have e : formatDoc cx (.mk .document p cs) = serDocument cx (serKids cx cs) {} := by
    simp only [formatDoc, ser, dispatch]
  rw [e]
  simpa using g

/-- **C86.** So does a run of the program over a source text that is not empty. -/
theorem c86_run (cx : Cx) (parse : List Char → Node) (input : List Char) (p : Pos) (cs : List Node)
    (hp : parse input = .mk .document p cs) (h : wellPlacedDoc cs = true) (h0 : input ≠ []) :
    undefinedWarnings (withSource cx input) cs <+: (formatWithWarnings cx parse input).2 := by
  rw [formatWithWarnings, if_neg h0, hp]
  exact c86_document (withSource cx input) p cs h

/-- A document with references of all kinds, a definition and an abbreviation. -/
def exRefsSource : List Char :=
  ("see [a] and [b][c] and [d][] and \\[e] and [^f] and [g] and [h]\n\n" ++
   "*[g]: G\n  [h]: ./h\n[a b]:\n").toList

/-- Its blocks, as they are read with an abbreviation before the definitions. -/
def exRefsBlocks : List Node :=
  [.mk .paragraph ⟨1, 1, 1, 68⟩ [.mk (.text "see [a] and [b][c] and [d][] and [e] and [^f] and [g] and [h]".toList)
     ⟨1, 1, 1, 68⟩ [], .mk (.code "[x]".toList) ⟨1, 1, 1, 1⟩ []],
   .mk .paragraph ⟨3, 1, 5, 6⟩ [.mk (.text "*[g]: G".toList) ⟨3, 1, 3, 7⟩ [], .mk .softBreak ⟨3, 8, 3, 8⟩ [],
     .mk (.text "[h]: ./h".toList) ⟨4, 3, 4, 10⟩ [], .mk .softBreak ⟨4, 11, 4, 11⟩ [],
     .mk (.text "[a b]:".toList) ⟨5, 1, 5, 6⟩ []]]

/-- The references to `a`, `c`, `d` and to the label without a destination are reported. -/
example : undefinedWarnings (withSource codeCx exRefsSource) exRefsBlocks =
    [⟨1, "undefined reference link: [a]".toList⟩, ⟨1, "undefined reference link: [c]".toList⟩,
     ⟨1, "undefined reference link: [d]".toList⟩, ⟨5, "undefined reference link: [a b]".toList⟩] := by
  decide +kernel

example : ∀ n ∈ exRefsBlocks, n.directive = none := by decide +kernel

/-- A text in a paragraph of its own on the first line. -/
def onLine (t : List Char) : Node := .mk .paragraph ⟨1, 1, 1, t.length⟩ [.mk (.text t) ⟨1, 1, 1, t.length⟩ []]

/-- A backslash before every bracket. -/
def escapeBrackets (t : List Char) : List Char :=
  t.flatMap fun c => if c = '[' ∨ c = ']' then ['\\', c] else [c]

/-- **C86.** That nothing is reported for a text whose brackets are all escaped is false:
the text is looked for on the line as it would be without the second backslash. -/
theorem c86_escaped_false :
    ¬ ∀ (cx : Cx) (t : List Char), (∀ c ∈ t, c.isAlpha = true ∨ c = '[' ∨ c = ']') →
      undefinedWarnings (withSource cx (escapeBrackets t)) [onLine t] = [] := by
  intro h
  exact absurd (h codeCx "[a]".toList (by decide +kernel)) (by decide +kernel)

example : escapeBrackets "[a]".toList = "\\[a\\]".toList ∧
    undefinedWarnings (withSource codeCx "\\[a\\]".toList) [onLine "[a]".toList] =
      [⟨1, "undefined reference link: [a]".toList⟩] := by decide +kernel

/-- **C86.** That a reference with an undefined label is always reported is false: an escaped
one before it on the line hides it. -/
theorem c86_missed_false :
    ¬ ∀ (cx : Cx) (x l : List Char), (∀ c ∈ x ++ l, c.isAlpha = true) → l ≠ [] →
      ∃ w ∈ undefinedWarnings (withSource cx ("\\[".toList ++ x ++ "] [".toList ++ l ++ [']']))
          [onLine ('[' :: x ++ "] [".toList ++ l ++ [']'])],
        w.message = "undefined reference link: [".toList ++ l ++ [']'] := by
  intro h
  obtain ⟨w, hw, _⟩ := h codeCx "a".toList "a".toList (by decide +kernel) (by decide)
  have e : undefinedWarnings (withSource codeCx ("\\[".toList ++ "a".toList ++ "] [".toList ++ "a".toList ++ [']']))
      [onLine ('[' :: "a".toList ++ "] [".toList ++ "a".toList ++ [']'])] = [] := by decide +kernel
  rw [e] at hw
  cases hw

/-- A paragraph and after it a code block with the given lines. -/
def withCode (t code : List Char) : List Node :=
  [onLine t, .mk (.codeBlock [] (code ++ ['\n'])) ⟨3, 1, 5, 3⟩ []]

/-- **C86.** That a label is reported if nothing but code could define it is false: the lines of
code blocks count as definitions. -/
theorem c86_code_false :
    ¬ ∀ (cx : Cx) (l code : List Char), (∀ c ∈ l, c.isAlpha = true) → l ≠ [] → '\n' ∉ code →
      '`' ∉ code →
      ∃ w ∈ undefinedWarnings (withSource cx ('[' :: l ++ "]\n\n```\n".toList ++ code ++ "\n```\n".toList))
          (withCode ('[' :: l ++ [']']) code),
        w.message = "undefined reference link: [".toList ++ l ++ [']'] := by
  intro h
  obtain ⟨w, hw, _⟩ := h codeCx "a".toList "[a]: ./a".toList (by decide +kernel) (by decide)
    (by decide +kernel) (by decide +kernel)
  have e : undefinedWarnings (withSource codeCx ('[' :: "a".toList ++ "]\n\n```\n".toList ++
      "[a]: ./a".toList ++ "\n```\n".toList)) (withCode ('[' :: "a".toList ++ [']']) "[a]: ./a".toList) = [] := by
    decide +kernel
  rw [e] at hw
  cases hw

end Hongdown.Props
