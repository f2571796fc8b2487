import Verif.Model.Inline

/-!
# Model of `src/serializer/table.rs`
-/

namespace Hongdown.Model

/-- `count_unescaped_pipes` (src/serializer/table.rs:216-228). -/
def countPipes (prev : Option Char) : List Char → Nat
  | [] => 0
  | c :: cs => (if c = '|' ∧ prev ≠ some '\\' then 1 else 0) + countPipes (some c) cs

/-- Decimal digits of a number (`{}` of a `usize`). -/
def natText (n : Nat) : List Char := (Nat.repr n).toList

/-- Warning text for too many pipes (src/serializer/table.rs:166-170). -/
def tooManyPipes (n cols start : Nat) : List Char :=
  "table row has ".toList ++ natText n ++ " pipe characters, expected ".toList ++
    natText (cols + 1) ++ " for ".toList ++ natText cols ++
    " columns; unescaped `|` in cell content? (table starts at line ".toList ++ natText start ++
    [')']

/-- Warning text for too few pipes (src/serializer/table.rs:175-179). -/
def tooFewPipes (n cols start : Nat) : List Char :=
  "table row has ".toList ++ natText n ++ " pipe characters, expected at least ".toList ++
    natText cols ++ " for ".toList ++ natText cols ++ " columns (table starts at line ".toList ++
    natText start ++ [')']

/-- The check of one source line (src/serializer/table.rs:145-181). -/
def tableLineWarning (cols start : Nat) (line : List Char) : Option (List Char) :=
  if line.all fun c => c = '|' || c = '-' || c = ':' || c = ' ' then none
  else if countPipes none line > cols + 1 then some (tooManyPipes (countPipes none line) cols start)
  else if countPipes none line < cols then some (tooFewPipes (countPipes none line) cols start)
  else none

/-- `check_table_source_columns` (src/serializer/table.rs:124-183). -/
def tableWarnings (sourceLines : List (List Char)) (p : Pos) (cols : Nat) : List Warning :=
  if p.startLine = 0 ∨ p.endLine = 0 then []
  else (List.range' p.startLine (p.endLine + 1 - p.startLine)).filterMap fun l =>
    match sourceLines[l - 1]? with
    | none => none
    | some line => (tableLineWarning cols p.startLine line).map fun m => ⟨l, m⟩

/-- `format_cell_aligned` (src/serializer/table.rs:190-212). -/
def formatCell (w : List Char → Nat) (content : List Char) (width : Nat) (a : Align) : List Char :=
  let padding := width - w content
  match a with
  | .right => spaces padding ++ content
  | .center => spaces (padding / 2) ++ content ++ spaces (padding - padding / 2)
  | _ => content ++ spaces padding

/-- Update of the column widths for one row (src/serializer/table.rs:33-43): each width
becomes the larger of the old width and the cell width; extra cells are ignored. -/
def widenRow (w : List Char → Nat) : List Nat → List (List Char) → List Nat
  | [], _ => []
  | ws, [] => ws
  | x :: xs, c :: cs => max x (w c) :: widenRow w xs cs

/-- The column widths (src/serializer/table.rs:27-51). -/
def colWidths (w : List Char → Nat) (cols : Nat) (rows : List (List (List Char))) : List Nat :=
  (rows.foldl (widenRow w) (List.replicate cols 0)).map (max 3)

/-- A header or data row (src/serializer/table.rs:58-67, 105-114). -/
def rowText (w : List Char → Nat) (widths : List Nat) (aligns : List Align)
    (cells : List (List Char)) : List Char :=
  ['|'] ++ (cells.mapIdx fun i cell =>
    [' '] ++ formatCell w cell (widths.getD i 3) (aligns.getD i .none) ++ [' ', '|']).flatten ++
    ['\n']

/-- A cell of the delimiter row (src/serializer/table.rs:78-95). -/
def delimCell (width : Nat) : Align → List Char
  | .left => ':' :: List.replicate (width - 1) '-'
  | .right => List.replicate (width - 1) '-' ++ [':']
  | .center => ':' :: List.replicate (width - 2) '-' ++ [':']
  | .none => List.replicate width '-'

/-- The delimiter row (src/serializer/table.rs:74-98). -/
def delimText (widths : List Nat) (aligns : List Align) : List Char :=
  ['|'] ++ (aligns.mapIdx fun i a => [' '] ++ delimCell (widths.getD i 3) a ++ [' ', '|']).flatten ++
    ['\n']

/-- The output of `serialize_table` (src/serializer/table.rs:48-115) for the cells of all
rows, the first of which is the header. -/
def tableText (w : List Char → Nat) (quote : Bool) (aligns : List Align)
    (rows : List (List (List Char))) : List Char :=
  let widths := colWidths w aligns.length rows
  let q := if quote then ['>', ' '] else []
  match rows with
  | [] => []
  | header :: data =>
    q ++ rowText w widths aligns header ++ q ++ delimText widths aligns ++
      data.flatMap fun r => q ++ rowText w widths aligns r

/-- The content of a cell and its references (src/serializer/table.rs:35-42). -/
def cellInline (cx : Cx) (cell : Node) : Inl :=
  let r := collectInlines cx cell.children
  (escapeTableCell r.1, r.2)

/-- `serialize_table` (src/serializer/table.rs:10-116). -/
def serTable (cx : Cx) (p : Pos) (aligns : List Align) (rows : List Node) (st : St) : St :=
  if rows.isEmpty then st
  else
    let cells := rows.map fun r => r.children.map (cellInline cx)
    let st := { st with
      warnings := st.warnings ++ tableWarnings cx.sourceLines p aligns.length }
    let st := addReferences st (cells.flatten.flatMap (·.2))
    st.push (tableText cx.width st.inBlockQuote aligns (cells.map (·.map (·.1))))

end Hongdown.Model
