import Verif.Lemmas.SourceText
import Verif.Props.Refs

/-!
# C53: escaping against the source
-/

namespace Hongdown.Props
open Model Spec

/-- A small table of names. -/
def exNames (s : List Char) : Option Char :=
  if s = "lt".toList then some '<' else if s = "amp".toList then some '&' else none

theorem exNames_ok : NamesOk exNames := by
  intro s c h
  unfold exNames at h
  split at h
  · next e => subst e; decide
  · split at h
    · next e => subst e; decide
    · cases h

/-- **C53.** The claim is false: for the source `\#` the code writes `\\#`, which means `\#`. -/
theorem c53_reads_false : ¬ ∀ (named : List Char → Option Char) (t s : List Char), NamesOk named →
    readText named 0 s = t → readText named 0 (escapeTextPreservingSource named t s) = t := by
  intro h
  have := h exNames "#".toList "\\#".toList exNames_ok (by decide +kernel)
  revert this
  decide +kernel

/-- **C53.** The source `\[a\](b)` is no link, but what is written for it, `\\[a\\](b)`, has one. -/
theorem c53_link_false : ¬ ∀ (named : List Char → Option Char) (t s : List Char), NamesOk named →
    readText named 0 s = t → mayFormLink 0 s = false →
    mayFormLink 0 (escapeTextPreservingSource named t s) = false := by
  intro h
  have := h exNames "[a](b)".toList "\\[a\\](b)".toList exNames_ok (by decide +kernel) (by decide +kernel)
  revert this
  decide +kernel

/-- **C53.** A `<` that was written as a reference can come back as it is, so that a tag appears:
after a reference that the code does not follow, ... -/
theorem c53_tag_false : ¬ ∀ (named : List Char → Option Char) (t s : List Char), NamesOk named →
    readText named 0 s = t → '<' ∉ s → '<' ∉ escapeTextPreservingSource named t s := by
  intro h
  have := h exNames "�<b>".toList "&#0;&lt;b>".toList exNames_ok (by decide +kernel) (by decide)
  revert this
  decide +kernel

/-- **C53.** ... and after a quotation mark, as the text is compared with the source after the
change of quotation marks: in `"1 < 2" &lt;b>` the reference moves to the first sign, and the
document gets a tag. -/
theorem c53_document_false : ¬ ∀ (cx : Cx) (s t tag : List Char) (n : Nat), NamesOk cx.namedEntity →
    cx.sourceLines = [s] → readText cx.namedEntity 0 s = t → tag = "<b>".toList → ¬ tag <:+: s →
    ¬ tag <:+: (formatDoc cx (exDoc [.mk .paragraph ⟨1, 1, 1, n⟩ [.mk (.text t) ⟨1, 1, 1, n⟩ []]])).output := by
  intro h
  have := h { codeCx with namedEntity := exNames, sourceLines := ["\"1 < 2\" &lt;b>".toList] }
    "\"1 < 2\" &lt;b>".toList "\"1 < 2\" <b>".toList _ 14 exNames_ok rfl (by decide +kernel) rfl (by decide +kernel)
  have e : (formatDoc { codeCx with namedEntity := exNames, sourceLines := ["\"1 < 2\" &lt;b>".toList] }
      (exDoc [.mk .paragraph ⟨1, 1, 1, 14⟩ [.mk (.text "\"1 < 2\" <b>".toList) ⟨1, 1, 1, 14⟩ []]])).output =
      "“1 &lt; 2” <b>\n".toList := by decide +kernel
  rw [e] at this
  exact this (by decide +kernel)

/-- **C53.** The parts of a source are what a reader sees. -/
theorem c53_pieces (named : List Char → Option Char) (hn : NamesOk named) (ps : List Piece)
    (h : PiecesOk named ps) : readText named 0 (piecesSource ps) = ps.map Piece.means :=
  readText_pieces hn ps h

/-- **C53.** It holds if only the characters `*`, `_`, `\` and backtick are escaped in the source,
references are at most ten characters long and do not stand for the replacement character, and
there are no unknown references: what is written means the text; references and escapes are kept;
and nothing changes in a source without bare special characters. (Missing: the other escapes and
references, for which it is false.) -/
theorem c53_reads_partial (named : List Char → Option Char) (hn : NamesOk named) (ps : List Piece)
    (h : PiecesOk named ps) (hs : ∀ p ∈ ps, p.simple) :
    let written := escapeTextPreservingSource named (ps.map Piece.means) (piecesSource ps)
    readText named 0 written = ps.map Piece.means ∧
    ('<' ∉ piecesSource ps → '<' ∉ written) ∧
    (∀ c ∈ liveChars written, c = '*' ∨ c = '_' ∨ c = '\\' ∨ c = '`' → False) ∧
    ((∀ c, .char c ∈ ps → c ≠ '*' ∧ c ≠ '_' ∧ c ≠ '\\' ∧ c ≠ '`') → written = piecesSource ps) := by
  simp only [escape_pieces hn ps h hs]
  refine ⟨readText_written hn ps h, ?_, ?_, ?_⟩
  · intro hlt hw
    apply hlt
    obtain ⟨p, hp, hw⟩ := List.mem_flatMap.mp hw
    refine List.mem_flatMap.mpr ⟨p, hp, ?_⟩
    cases p with
    | char c =>
      simp only [pieceWritten, escapeChar_eq] at hw
      split at hw
      · simp only [List.mem_cons, List.not_mem_nil, or_false] at hw
        rcases hw with hw | hw
        · exact absurd hw (by decide)
        · exact hw ▸ .head _
      · exact hw
    | escaped c => exact hw
    | reference body c => exact hw
  · exact written_live hn ps h hs
  · intro hc
    unfold piecesSource
    have : ∀ p ∈ ps, pieceWritten p = p.source := by
      intro p hp
      cases p with
      | char c =>
        obtain ⟨h1, h2, h3, h4⟩ := hc c hp
        simp [pieceWritten, Piece.source, escapeChar_eq, h1, h2, h3, h4]
      | escaped c => rfl
      | reference body c => rfl
    clear h hs hc
    induction ps with
    | nil => rfl
    | cons p ps ih =>
      rw [List.flatMap_cons, List.flatMap_cons, this p (.head _), ih (fun q hq => this q (.tail _ hq))]

example : PiecesOk exNames [.char 'a', .escaped '*', .char '&', .char ' ', .reference "lt".toList '<', .char '_'] ∧
    escapeTextPreservingSource exNames "a*& <_".toList "a\\*& &lt;_".toList = "a\\*& &lt;\\_".toList := by
  refine ⟨?_, by decide +kernel⟩
  simp [PiecesOk, piecesSource, Piece.source, asciiPunctuation, referenceChar, exNames, inReference]

end Hongdown.Props
