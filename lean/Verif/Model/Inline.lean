import Verif.Model.Source

/-!
# Model of `src/serializer/inline.rs`, `src/serializer/link.rs` and the reference style
detection of `src/serializer/mod.rs`

The functions that collect inline content append to a string and call
`add_reference`; they read only what never changes during a run. In the model they
return the appended text together with the references, in order.
-/

namespace Hongdown.Model

/-- The bracket matching loop of `get_reference_style_info` (src/serializer/mod.rs:110-125):
the index of the `]` which brings the depth to 0. -/
def closeIndex (depth : Int) (i : Nat) : List Char → Option Nat
  | [] => none
  | c :: cs =>
    if c = '[' then closeIndex (depth + 1) (i + 1) cs
    else if c = ']' then
      if depth - 1 = 0 then some i else closeIndex (depth - 1) (i + 1) cs
    else closeIndex depth (i + 1) cs

/-- Collapsed references are marked with U+0001 (src/serializer/mod.rs:152). -/
def collapsedMark : Char := '\x01'

/-- `get_reference_style_info` (src/serializer/mod.rs:89-164) on the source of the node:
text and label of a reference style link, `none` for an inline style link. The byte
offset of the first `[` is used as a character index, as in the code. -/
def referenceStyle (source : List Char) : Option (List Char × List Char) :=
  let source := (stripPrefix? ['!'] source).getD source
  if !source.contains '[' then none
  else
    let first := byteLen (source.takeWhile (· ≠ '['))
    match closeIndex 0 first (source.drop first) with
    | none => none
    | some e =>
      let after := source.drop (e + 1)
      let text := normalizeWhitespace ((source.take e).drop (first + 1))
      if after.head? = some '(' then none
      else match after with
        | '[' :: rest =>
          if rest.contains ']' then
            let label := normalizeWhitespace (rest.takeWhile (· ≠ ']'))
            if label = [] then some (text, collapsedMark :: text) else some (text, label)
          else some (text, text)
        | _ => some (text, text)

/-- `get_reference_style_info` (src/serializer/mod.rs:89-90). -/
def referenceStyleInfo (cx : Cx) (p : Pos) : Option (List Char × List Char) :=
  (extractSource cx p).bind referenceStyle

/-- Inline content: the text and the references collected with it. -/
abbrev Inl := List Char × List Ref

/-- One after the other. -/
def Inl.append (a b : Inl) : Inl := (a.1 ++ b.1, a.2 ++ b.2)

/-- `format_reference_link` (src/serializer/link.rs:9-42) with `bang` empty, and
`format_reference_image` (src/serializer/link.rs:105-138) with `bang` an exclamation mark. -/
def formatReference (bang text label url title : List Char) : Inl :=
  match label with
  | '\x01' :: actual => (bang ++ ['['] ++ text ++ [']', '[', ']'], [⟨actual, url, title⟩])
  | _ =>
    if text = label then (bang ++ ['['] ++ text ++ [']'], [⟨label, url, title⟩])
    else (bang ++ ['['] ++ text ++ [']', '['] ++ label ++ [']'], [⟨label, url, title⟩])

/-- The optional title of an inline link (src/serializer/link.rs:50-54). -/
def titlePart (title : List Char) : List Char :=
  if title = [] then [] else [' ', '"'] ++ title ++ ['"']

/-- `format_inline_link` (src/serializer/link.rs:45-56) with `bang` empty, and
`format_inline_image` (src/serializer/link.rs:141-152). -/
def formatInlineLink (bang text url title : List Char) : List Char :=
  bang ++ ['['] ++ text ++ [']', '('] ++ url ++ titlePart title ++ [')']

/-- `format_autolink` (src/serializer/link.rs:59-63). -/
def formatAutolink (url : List Char) : List Char := ['<'] ++ url ++ ['>']

/-- `text.replace('\x00', " ")`. -/
def softToSpace (s : List Char) : List Char := s.map fun c => if c = '\x00' then ' ' else c

/-- `format_external_link_as_reference` (src/serializer/link.rs:70-88). -/
def formatExternalLink (text url title : List Char) (collapsed : Bool) : Inl :=
  let t := softToSpace text
  (['['] ++ t ++ [']'] ++ (if collapsed then ['[', ']'] else []), [⟨t, url, title⟩])

/-- `next_sibling_starts_with_bracket` (src/serializer/link.rs:92-102); the argument is the
list of the siblings that follow. -/
def nextIsBracket : List Node → Bool
  | .mk (.footnoteReference _) _ _ :: _ => true
  | .mk (.link _ _) _ _ :: _ => true
  | .mk (.image _ _) _ _ :: _ => true
  | _ => false

/-- Is the node an image (src/serializer/inline.rs:187-189)? -/
def Node.isImage : Node → Bool
  | .mk (.image _ _) _ _ => true
  | _ => false

mutual
/-- `collect_raw_text` (src/serializer/inline.rs:17-37). -/
def rawText : Node → List Char
  | .mk (.text t) _ _ => t
  | .mk .softBreak _ _ => [' ']
  | .mk _ _ cs => rawTexts cs

def rawTexts : List Node → List Char
  | [] => []
  | n :: ns => rawText n ++ rawTexts ns
end

/-- A text node (src/serializer/inline.rs:41-51 and 134-144). -/
def textNode (cx : Cx) (t : List Char) (p : Pos) : List Char :=
  let transformed := transformPunctuation cx.uni cx.opts.punct t
  match extractSource cx p with
  | some src => escapeTextPreservingSource cx.namedEntity transformed src
  | none => escapeText transformed

/-- A code span (src/serializer/inline.rs:52-67 and 169-184). -/
def codeNode (cx : Cx) (literal : List Char) (p : Pos) : List Char :=
  match extractSource cx p with
  | some src =>
    if isValidCodeSpan src && !src.contains '\n' then src else formatCodeSpan literal
  | none => formatCodeSpan literal

mutual
/-- `collect_text_recursive` (src/serializer/inline.rs:39-120), used for headings and the
text of links outside paragraphs. -/
def collectText (cx : Cx) : Node → Inl
  | .mk v p cs =>
    match v with
    | .text t => (textNode cx t p, [])
    | .code literal => (codeNode cx literal p, [])
    | .emph =>
      let d := [emphDelimiter cx (.mk v p cs)]
      let r := collectTexts cx cs
      (d ++ r.1 ++ d, r.2)
    | .strong =>
      let d := strongDelimiter cx (.mk v p cs)
      let r := collectTexts cx cs
      (d ++ r.1 ++ d, r.2)
    | .softBreak => ([' '], [])
    | .link url title =>
      match referenceStyleInfo cx p with
      | some (text, label) => formatReference [] text label url title
      | none =>
        let text := rawTexts cs
        if isExternalUrl url then formatExternalLink text url title false
        else (formatInlineLink [] text url title, [])
    | .image url title => (formatInlineLink ['!'] (rawTexts cs) url title, [])
    | _ => collectTexts cx cs

def collectTexts (cx : Cx) : List Node → Inl
  | [] => ([], [])
  | n :: ns => (collectText cx n).append (collectTexts cx ns)
end

mutual
/-- `collect_inline_node` (src/serializer/inline.rs:132-287). `nextBracket` is
`next_sibling_starts_with_bracket`. -/
def collectInline (cx : Cx) (nextBracket : Bool) : Node → Inl
  | .mk v p cs =>
    match v with
    | .text t => (textNode cx t p, [])
    | .softBreak => (['\x00'], [])
    | .lineBreak => (['\n'], [])
    | .emph =>
      let d := [emphDelimiter cx (.mk v p cs)]
      let r := collectInlines cx cs
      (d ++ r.1 ++ d, r.2)
    | .strong =>
      let d := strongDelimiter cx (.mk v p cs)
      let r := collectInlines cx cs
      (d ++ r.1 ++ d, r.2)
    | .code literal => (codeNode cx literal p, [])
    | .link url title =>
      match referenceStyleInfo cx p with
      | some (text, label) =>
        if cs.any Node.isImage then
          let actual := (stripPrefix? [collapsedMark] label).getD label
          let r := collectInlines cx cs
          (['['] ++ r.1 ++ [']', '['] ++ actual ++ [']'], r.2 ++ [⟨actual, url, title⟩])
        else formatReference [] text label url title
      | none =>
        if cs.any Node.isImage then
          let r := collectInlines cx cs
          (formatInlineLink [] r.1 url title, r.2)
        else if title = [] ∧ rawTexts cs = url then (formatAutolink url, [])
        else if isExternalUrl url then
          let r := collectInlines cx cs
          let l := formatExternalLink r.1 url title nextBracket
          (l.1, r.2 ++ l.2)
        else
          let r := collectInlines cx cs
          (formatInlineLink [] r.1 url title, r.2)
    | .image url title =>
      match referenceStyleInfo cx p with
      | some (text, label) => formatReference ['!'] text label url title
      | none =>
        let r := collectInlines cx cs
        (formatInlineLink ['!'] r.1 url title, r.2)
    | .htmlInline html => (html, [])
    | .footnoteReference name => (['[', '^'] ++ name ++ [']'], [])
    | _ => collectInlines cx cs

/-- `collect_inline_content` (src/serializer/inline.rs:122-130). -/
def collectInlines (cx : Cx) : List Node → Inl
  | [] => ([], [])
  | n :: ns => (collectInline cx (nextIsBracket ns) n).append (collectInlines cx ns)
end

end Hongdown.Model
