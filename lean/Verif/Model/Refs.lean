import Verif.Model.Inline

/-!
# Model of the reference and footnote output of `src/serializer/mod.rs`
-/

namespace Hongdown.Model

/-- `ensure_blank_line` (src/serializer/mod.rs:168-176). -/
def ensureBlankLine (st : St) : St :=
  if ['\n', '\n'].isSuffixOf st.output then st
  else if ['\n'].isSuffixOf st.output then st.push ['\n']
  else st.push ['\n', '\n']

/-- `s.parse::<u64>().ok()`: decimal digits after an optional plus sign, below 2^64. -/
def parseU64 (s : List Char) : Option Nat :=
  (parseNat 10 ((stripPrefix? ['+'] s).getD s)).filter (· < 2 ^ 64)

/-- `extract_numeric_label` (src/serializer/mod.rs:243-246). -/
def numericLabel (label : List Char) : Option Nat :=
  parseU64 ((stripPrefix? ['#'] label).getD label)

/-- `write_reference` (src/serializer/mod.rs:249-262). -/
def referenceText (r : Ref) : List Char :=
  ['['] ++ softToSpace r.label ++ [']', ':', ' '] ++ r.url ++ titlePart r.title ++ ['\n']

/-- Stable insertion by number, for `sort_by_key`. -/
def insertByKey {α : Type} (x : Nat × α) : List (Nat × α) → List (Nat × α)
  | [] => [x]
  | y :: ys => if x.1 < y.1 then x :: y :: ys else y :: insertByKey x ys

/-- `sort_by_key` on the first component (stable). -/
def sortByKey {α : Type} (xs : List (Nat × α)) : List (Nat × α) :=
  xs.foldl (fun acc x => insertByKey x acc) []

/-- The order of output (src/serializer/mod.rs:198-239 for references, 309-340 for
footnotes): with two or more numeric ones, first the others in order, then the numeric
ones by number; otherwise all in order. -/
def outputOrder {α : Type} (num : α → Option Nat) (xs : List α) : List α :=
  if (xs.filter fun x => (num x).isSome).length < 2 then xs
  else
    (xs.filter fun x => (num x).isNone) ++
      (sortByKey (xs.filterMap fun x => (num x).map fun k => (k, x))).map (·.2)

/-- Write references and mark them as emitted (src/serializer/mod.rs:207-210). -/
def writeReferences (st : St) (rs : List Ref) : St :=
  rs.foldl (fun st r =>
    { st.push (referenceText r) with emittedReferences := st.emittedReferences ++ [r.label] }) st

/-- `flush_references` (src/serializer/mod.rs:179-240). -/
def flushReferences (st : St) : St :=
  if st.pendingReferences = [] then st
  else
    let refs := (st.pendingReferences.map (·.2)).filter fun r =>
      !st.emittedReferences.contains r.label
    let st := { st with pendingReferences := [] }
    if refs = [] then st
    else writeReferences (ensureBlankLine st) (outputOrder (fun r => numericLabel r.label) refs)

/-- Is a definition with this reference line to be written now
(src/serializer/mod.rs:280-283, 368-371)? -/
def dueBefore (before : Option Nat) (line : Nat) : Bool :=
  match before with
  | some b => 0 < line && line < b
  | none => true

/-! ### Footnotes -/

/-- The loop of `write_footnote` (src/serializer/mod.rs:446-467): greedy filling. `first` is
the width for the first line, `cont` for the others, `cur` the current line. -/
def fillWords (w : List Char → Nat) (first cont : Nat) (isFirst : Bool) (cur : List Char) :
    List (List Char) → List (List Char)
  | [] => if cur = [] then [] else [cur]
  | word :: ws =>
    if cur = [] then fillWords w first cont isFirst word ws
    else if w cur + 1 + w word ≤ (if isFirst then first else cont) then
      fillWords w first cont isFirst (cur ++ ' ' :: word) ws
    else cur :: fillWords w first cont false word ws

/-- The prefix of a footnote (src/serializer/mod.rs:404). -/
def footnotePrefix (name : List Char) : List Char := ['[', '^'] ++ name ++ [']', ':', ' ']

/-- The lines of a footnote with blocks (src/serializer/mod.rs:409-425). -/
def footnoteBlockLines (pfx indent : List Char) (ls : List (List Char)) : List Char :=
  (ls.mapIdx fun i line =>
    (if i = 0 then pfx ++ line else if line = [] then [] else indent ++ line) ++ ['\n']).flatten

/-- The lines of a footnote without blocks (src/serializer/mod.rs:470-479). -/
def footnoteLines (pfx indent : List Char) (ls : List (List Char)) : List Char :=
  (ls.mapIdx fun i line => (if i = 0 then pfx else indent) ++ line ++ ['\n']).flatten

/-- The text of `write_footnote` (src/serializer/mod.rs:403-481). -/
def footnoteText (cx : Cx) (f : Footnote) : List Char :=
  let pfx := footnotePrefix f.name
  let indent := spaces (byteLen pfx)
  if f.hasBlocks then footnoteBlockLines pfx indent (lines f.content)
  else
    let words := splitWs (softToSpace f.content)
    if words = [] then pfx ++ ['\n']
    else footnoteLines pfx indent
      (fillWords cx.width (cx.opts.lineWidth - cx.width pfx) (cx.opts.lineWidth - byteLen pfx)
        true [] words)

/-- Does `write_footnote` underflow (src/serializer/mod.rs:430-431)? In a debug build this is
a panic; in a release build the widths wrap around and the text is not wrapped. -/
def footnoteUnderflow (cx : Cx) (f : Footnote) : Bool :=
  let pfx := footnotePrefix f.name
  !f.hasBlocks && (cx.opts.lineWidth < cx.width pfx || cx.opts.lineWidth < byteLen pfx)

/-- `write_footnote` (src/serializer/mod.rs:403-481) and the mark as emitted
(src/serializer/mod.rs:307, 334, 340). -/
def writeFootnote (cx : Cx) (st : St) (f : Footnote) : St :=
  let st := { st with panicked := st.panicked || footnoteUnderflow cx f }
  { st.push (footnoteText cx f) with
    footnotes := { st.footnotes with emitted := st.footnotes.emitted ++ [f.name] } }

/-- `flush_footnotes_before` (src/serializer/mod.rs:266-341). Putting the kept footnotes
back keeps their order. -/
def flushFootnotesBefore (cx : Cx) (before : Option Nat) (st : St) : St :=
  if st.footnotes.pending = [] then st
  else
    let fresh := st.footnotes.pending.filter fun e => !st.footnotes.emitted.contains e.1
    let due := (fresh.filter fun e => dueBefore before e.2.referenceLine).map (·.2)
    let keep := fresh.filter fun e => !dueBefore before e.2.referenceLine
    let st := { st with footnotes := { st.footnotes with pending := keep } }
    if due = [] then st
    else (outputOrder (fun f => parseU64 f.name) due).foldl (writeFootnote cx) (ensureBlankLine st)

/-- `flush_footnote_references_before` (src/serializer/mod.rs:355-395). -/
def flushFootnoteRefsBefore (before : Option Nat) (st : St) : St :=
  if st.footnotes.pendingReferences = [] then st
  else
    let fresh := st.footnotes.pendingReferences.filter fun e =>
      !st.emittedReferences.contains e.1
    let due := (fresh.filter fun e => dueBefore before e.2.2).map (·.2.1)
    let keep := fresh.filter fun e => !dueBefore before e.2.2
    let st := { st with footnotes := { st.footnotes with pendingReferences := keep } }
    if due = [] then st
    else writeReferences (ensureBlankLine st) due

/-- The three flushes in the order in which `serialize_document` calls them
(src/serializer/document.rs:57-59 and others). -/
def flushAll (cx : Cx) (before : Option Nat) (st : St) : St :=
  flushFootnoteRefsBefore before (flushReferences (flushFootnotesBefore cx before st))

/-- `FootnoteSet::record_reference_line` (src/serializer/state.rs:158-160). -/
def recordReferenceLine (name : List Char) (line : Nat) (st : St) : St :=
  { st with footnotes := { st.footnotes with
      referenceLines := mapOrInsert name line st.footnotes.referenceLines } }

end Hongdown.Model
