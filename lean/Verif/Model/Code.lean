import Verif.Model.State

/-!
# Model of `src/serializer/code.rs`
-/

namespace Hongdown.Model

/-- `NO_FORMAT_KEYWORD` (src/serializer/code.rs:8). -/
def noFormatKeyword : List Char := "hongdown-no-format".toList

/-- `parse_code_info` (src/serializer/code.rs:19-35): language, info to output, skip flag. -/
def parseCodeInfo (info : List Char) : List Char × List Char × Bool :=
  let trimmed := trim info
  if trimmed = [] then ([], [], false)
  else ((splitWs trimmed).headD [], trimmed, (splitWs trimmed).any (· = noFormatKeyword))

/-- The language for the formatter lookup (src/serializer/code.rs:149-153). -/
def codeLanguage (cx : Cx) (info : List Char) : List Char :=
  if (parseCodeInfo info).1 = [] then cx.opts.defaultLanguage else (parseCodeInfo info).1

/-- The info string to output (src/serializer/code.rs:156-160). -/
def outputInfo (cx : Cx) (info : List Char) : List Char :=
  if (parseCodeInfo info).2.1 = [] ∧ cx.opts.defaultLanguage ≠ [] then cx.opts.defaultLanguage
  else (parseCodeInfo info).2.1

/-- The text of the warning for a failed formatter (src/serializer/code.rs:56-61). -/
def formatterWarning (command : List (List Char)) (language err : List Char) : List Char :=
  "code formatter '".toList ++ joinWith [' '] command ++ "' failed for language '".toList ++
    language ++ "': ".toList ++ err

/-- `try_format_code` (src/serializer/code.rs:44-66, and 70-76 for WASM): the new code, if any,
and the warning to add, if any. A context with a callback is one of the WASM build. Without a
callback the WASM build formats nothing; `to_options` leaves `code_formatters` empty there, so the
other branch does the same. -/
def tryFormatCode (cx : Cx) (language code : List Char) : Option (List Char) × Option (List Char) :=
  match cx.callback with
  | some f => (f language code, none)
  | none =>
    match cx.opts.codeFormatters.lookup language with
    | none => (none, none)
    | some f => match cx.runFormatter f code with
      | .ok formatted => (some formatted, none)
      | .error e => (none, some (formatterWarning f.command language e))

/-- The content to output and the warning to add (src/serializer/code.rs:163-168; the same
in 103-108 and 252-257). -/
def codeContent (cx : Cx) (info literal : List Char) : List Char × Option (List Char) :=
  if codeLanguage cx info ≠ [] ∧ (parseCodeInfo info).2.2 = false then
    let r := tryFormatCode cx (codeLanguage cx info) literal
    (r.1.getD literal, r.2)
  else (literal, none)

/-- The number of fence characters at the start of a line after its white space
(src/serializer/code.rs:173-180); 0 when there are none. -/
def leadingFence (fc : Char) (line : List Char) : Nat := ((trimStart line).takeWhile (· = fc)).length

/-- The fence length (src/serializer/code.rs:171-185). -/
def fenceLength (minLen : Nat) (fc : Char) (content : List Char) : Nat :=
  max minLen (((lines content).map (leadingFence fc)).foldl max 0 + 1)

/-- The fence and the info string of the opening line (src/serializer/code.rs:192-199). -/
def openFence (cx : Cx) (fence info : List Char) : List Char :=
  fence ++ (if outputInfo cx info = [] then []
    else (if cx.opts.spaceAfterFence then [' '] else []) ++ outputInfo cx info) ++ ['\n']

/-- Add the warning of a failed formatter, with line 0 (src/serializer/code.rs:54-62). -/
def addCodeWarning (st : St) : Option (List Char) → St
  | none => st
  | some m => st.warn 0 m

/-- A content line in `serialize_code_block` (src/serializer/code.rs:202-212). -/
def codeLine (quote : Bool) (line : List Char) : List Char :=
  (if quote then (if line = [] then ['>'] else ['>', ' ']) else []) ++ line ++ ['\n']

/-- `serialize_code_block` (src/serializer/code.rs:140-220): the output. -/
def codeBlockText (cx : Cx) (quote : Bool) (info content : List Char) : List Char :=
  let fence := List.replicate (fenceLength cx.opts.minFenceLength cx.opts.fenceChar content)
    cx.opts.fenceChar
  let q := if quote then ['>', ' '] else []
  q ++ openFence cx fence info ++ (lines content).flatMap (codeLine quote) ++ q ++ fence ++ ['\n']

/-- `serialize_code_block` (src/serializer/code.rs:140-220). -/
def serCodeBlock (cx : Cx) (info literal : List Char) (st : St) : St :=
  let r := codeContent cx info literal
  (addCodeWarning st r.2).push (codeBlockText cx st.inBlockQuote info r.1)

/-- A content line in `serialize_code_block_indented` (src/serializer/code.rs:288-297). -/
def codeLineIndented (quote : Bool) (indent line : List Char) : List Char :=
  (if quote then ['>', ' '] else []) ++ (if line = [] then [] else indent ++ line) ++ ['\n']

/-- `serialize_code_block_indented` (src/serializer/code.rs:224-306): the output. The
prefix of the first line is already written. -/
def codeBlockIndentedText (cx : Cx) (quote : Bool) (info content indent : List Char) : List Char :=
  let fence := List.replicate (fenceLength cx.opts.minFenceLength cx.opts.fenceChar content)
    cx.opts.fenceChar
  let q := if quote then ['>', ' '] else []
  openFence cx fence info ++ (lines content).flatMap (codeLineIndented quote indent) ++
    q ++ indent ++ fence ++ ['\n']

/-- `serialize_code_block_indented` (src/serializer/code.rs:224-306). -/
def serCodeBlockIndented (cx : Cx) (info literal indent : List Char) (st : St) : St :=
  let r := codeContent cx info literal
  (addCodeWarning st r.2).push (codeBlockIndentedText cx st.inBlockQuote info r.1 indent)

/-- `s.contains(p)` for a string `p`. -/
def containsSub (p : List Char) : List Char → Bool
  | [] => p = []
  | c :: cs => p.isPrefixOf (c :: cs) || containsSub p cs

/-- `serialize_code_block_with_indent` (src/serializer/code.rs:79-138): the output. The
prefix of the first line is already written. -/
def codeBlockWithIndentText (cx : Cx) (info content indent : List Char) : List Char :=
  let base := List.replicate cx.opts.minFenceLength cx.opts.fenceChar
  let fence := if containsSub base content then cx.opts.fenceChar :: base else base
  openFence cx fence info ++ (lines content).flatMap (codeLineIndented false indent) ++
    (if content.getLast? ≠ some '\n' ∧ content ≠ [] then ['\n'] else []) ++
    indent ++ fence ++ ['\n']

/-- `serialize_code_block_with_indent` (src/serializer/code.rs:79-138). -/
def serCodeBlockWithIndent (cx : Cx) (info literal indent : List Char) (st : St) : St :=
  let r := codeContent cx info literal
  (addCodeWarning st r.2).push (codeBlockWithIndentText cx info r.1 indent)

end Hongdown.Model
