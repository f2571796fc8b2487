import Verif.Str

/-!
# Model of `src/serializer/wrap.rs`

The display width of a string (`UnicodeWidthStr::width`) is the parameter `w`.
-/

namespace Hongdown.Model

/-- The mutable variables of `wrap_single_segment` (src/serializer/wrap.rs:211-228). -/
structure WrapSt where
  result : List Char
  line : List Char
  token : List Char
  spaces : List Char
  inTicks : Bool
  depth : Nat
  isFirst : Bool
deriving DecidableEq, Repr

/-- `add_token_to_line_with_prefix` (src/serializer/wrap.rs:332-368) applied to the token
`tok` with trailing spaces `sp`. `firstW` is `first_prefix_width`. `spaces.len()` is a byte
length, but only spaces are ever collected. -/
def addToken (w : List Char → Nat) (firstW : Nat) (pfx : List Char) (lw : Nat)
    (tok sp : List Char) (st : WrapSt) : WrapSt :=
  let curW := if st.isFirst then firstW else w pfx
  if w st.line = curW then { st with line := st.line ++ tok ++ sp }
  else if w st.line + w tok + sp.length ≤ lw then { st with line := st.line ++ tok ++ sp }
  else { st with
    result := st.result ++ trimEnd st.line ++ ['\n']
    line := pfx ++ tok ++ sp
    isFirst := false }

/-- The repeated pattern `if !current_token.is_empty() && !trailing_spaces.is_empty()
{ add_token…; clear; clear }` (for instance src/serializer/wrap.rs:238-252). -/
def flushToken (w : List Char → Nat) (firstW : Nat) (pfx : List Char) (lw : Nat)
    (st : WrapSt) : WrapSt :=
  if st.token ≠ [] ∧ st.spaces ≠ [] then
    { addToken w firstW pfx lw st.token st.spaces st with token := [], spaces := [] }
  else st

/-- The body of the character loop (src/serializer/wrap.rs:230-306). -/
def wrapStep (w : List Char → Nat) (firstW : Nat) (pfx : List Char) (lw : Nat)
    (st : WrapSt) (ch : Char) : WrapSt :=
  if ch = '`' ∧ st.depth = 0 then
    if st.inTicks then { st with token := st.token ++ [ch], inTicks := false }
    else
      let st := flushToken w firstW pfx lw st
      { st with token := st.token ++ [ch], inTicks := true }
  else if st.inTicks then { st with token := st.token ++ [ch] }
  else if ch = '[' then
    let st := if st.depth = 0 then flushToken w firstW pfx lw st else st
    { st with token := st.token ++ [ch], depth := st.depth + 1 }
  else if ch = ']' ∧ st.depth > 0 then
    { st with token := st.token ++ [ch], depth := st.depth - 1 }
  else if st.depth > 0 then { st with token := st.token ++ [ch] }
  else if ch = ' ' then { st with spaces := st.spaces ++ [ch] }
  else
    let st := flushToken w firstW pfx lw st
    { st with token := st.token ++ [ch] }

/-- The state before the loop (src/serializer/wrap.rs:211-228). -/
def wrapInit (firstPfx : List Char) : WrapSt :=
  { result := [], line := firstPfx, token := [], spaces := [], inTicks := false, depth := 0,
    isFirst := true }

/-- `wrap_single_segment` (src/serializer/wrap.rs:205-329). -/
def wrapSingle (w : List Char → Nat) (text firstPfx pfx : List Char) (lw : Nat) : List Char :=
  let firstW := w firstPfx
  let st := text.foldl (wrapStep w firstW pfx lw) (wrapInit firstPfx)
  let st := if st.token ≠ [] then addToken w firstW pfx lw st.token [] st else st
  st.result ++ trimEnd st.line

/-- The soft break marker `\x00`. -/
def nul : Char := '\x00'

/-- The merging loop of both segment functions (src/serializer/wrap.rs:68-76 and 176-184):
a line followed by the trimmed remaining lines, each after a space. -/
def mergeLines (line : List Char) (rest : List (List Char)) : List Char :=
  rest.foldl (fun acc l => acc ++ [' '] ++ trim l) line

/-- The loop over the lines in `wrap_text_segment` and `wrap_text_first_line_segment`
(src/serializer/wrap.rs:55-86 and 157-196). `cur` is the prefix of the next line, `pfx` that
of the following ones. -/
def wrapLines (w : List Char → Nat) (pfx : List Char) (lw : Nat) :
    List Char → List Char → List (List Char) → List Char
  | result, _, [] => result
  | result, cur, l :: rest =>
    let line := trim l
    let sep := if result = [] then [] else ['\n']
    if w cur + w line ≤ lw then wrapLines w pfx lw (result ++ sep ++ cur ++ line) pfx rest
    else result ++ sep ++ wrapSingle w (mergeLines line rest) cur pfx lw

/-- `wrap_text_first_line_segment` (src/serializer/wrap.rs:137-199). With equal prefixes it is
`wrap_text_segment` (src/serializer/wrap.rs:40-89). -/
def wrapSegment (w : List Char → Nat) (text firstPfx pfx : List Char) (lw : Nat) : List Char :=
  let ls := splitOn nul text
  if ls.length = 1 then wrapSingle w text firstPfx pfx lw
  else wrapLines w pfx lw [] firstPfx ls

/-- `wrap_text` (src/serializer/wrap.rs:13-37). -/
def wrapText (w : List Char → Nat) (text pfx : List Char) (lw : Nat) : List Char :=
  let segs := splitOn '\n' text
  if segs.length = 1 then wrapSegment w text pfx pfx lw
  else joinWith [' ', ' ', '\n'] (segs.map fun s => wrapSegment w s pfx pfx lw)

/-- `wrap_text_first_line` (src/serializer/wrap.rs:98-134). -/
def wrapTextFirstLine (w : List Char → Nat) (text firstPfx pfx : List Char) (lw : Nat) :
    List Char :=
  match splitOn '\n' text with
  | [] => []
  | [_] => wrapSegment w text firstPfx pfx lw
  | s :: rest =>
    wrapSegment w s firstPfx pfx lw ++
      rest.flatMap fun s => [' ', ' ', '\n'] ++ pfx ++ wrapSegment w s [] pfx lw

end Hongdown.Model
