import Verif.Model.Document

/-!
# The end of a file

STYLE.md:457-459: "Files end with exactly one trailing newline." What a block contributes to the end of
the file is decided by its last block, by the last block in that one, and so on.
-/

namespace Hongdown.Spec
open Model

/-- The text ends with exactly one line break. -/
def OneBreak (t : List Char) : Prop := ∃ u c, t = u ++ [c, '\n'] ∧ c ≠ '\n'

/-- The text of the inline nodes ends with a visible character. -/
def VisibleEnd (cx : Cx) (ks : List Node) : Prop :=
  ∃ c, (collectInlines cx ks).1.getLast? = some c ∧ isWs c = false ∧ c ≠ '\x00'

/-- Fences are made of some character and have some length. -/
def FenceFine (o : Options) : Prop := 1 ≤ o.minFenceLength ∧ o.fenceChar ≠ '\n'

mutual
/-- Blocks after which the file ends well. -/
inductive BlockEnd (cx : Cx) : Node → Prop where
  | paragraph (q : Pos) (ks : List Node) : VisibleEnd cx ks → BlockEnd cx (.mk .paragraph q ks)
  | heading (q : Pos) (ks : List Node) (l : Nat) : cx.opts.headingSentenceCase = false →
      '\n' ∉ (collectTexts cx ks).1 → 1 ≤ cx.width (collectTexts cx ks).1 → BlockEnd cx (.mk (.heading l) q ks)
  | code (q : Pos) (ks : List Node) (info literal : List Char) : FenceFine cx.opts →
      BlockEnd cx (.mk (.codeBlock info literal) q ks)
  | rule (q : Pos) (ks : List Node) (c : Char) : cx.opts.thematicBreakStyle.getLast? = some c → c ≠ '\n' →
      BlockEnd cx (.mk .thematicBreak q ks)
  | html (q : Pos) (ks : List Node) (literal : List Char) : OneBreak literal →
      BlockEnd cx (.mk (.htmlBlock literal) q ks)
  | table (q : Pos) (ks : List Node) (as : List Align) : ks ≠ [] → BlockEnd cx (.mk (.table as) q ks)
  | list (q : Pos) (ks : List Node) (n : Node) (t : ListType) (tight : Bool) : ItemEnd cx n →
      BlockEnd cx (.mk (.list t tight) q (ks ++ [n]))
  | quote (q : Pos) (ks : List Node) (n : Node) : BlockEnd cx n → BlockEnd cx (.mk .blockQuote q (ks ++ [n]))
  | alert (q : Pos) (ks : List Node) (n : Node) (t : AlertType) (title : Option (List Char)) : BlockEnd cx n →
      BlockEnd cx (.mk (.alert t title) q (ks ++ [n]))
  | descriptions (q : Pos) (ks : List Node) (q' : Pos) (ks' : List Node) (q'' : Pos) (ks'' : List Node) (n : Node) :
      BlockEnd cx n → BlockEnd cx (.mk .descriptionList q
        (ks ++ [.mk .descriptionItem q' (ks' ++ [.mk .descriptionDetails q'' (ks'' ++ [n])])]))

/-- Items of lists after which the file ends well: the last block is a paragraph that is no definition of an
abbreviation, a code block, a list or a quote. -/
inductive ItemEnd (cx : Cx) : Node → Prop where
  | mk (v : NodeValue) (q : Pos) (ks : List Node) (n : Node) : (v = .item ∨ ∃ s, v = .taskItem s) →
      InItemEnd cx n → ItemEnd cx (.mk v q (ks ++ [n]))

inductive InItemEnd (cx : Cx) : Node → Prop where
  | paragraph (q : Pos) (ks : List Node) : VisibleEnd cx ks → abbreviationDef cx q = none →
      InItemEnd cx (.mk .paragraph q ks)
  | block (n : Node) : (n.isCodeBlock = true ∨ n.isList = true ∨ n.isQuote = true) → BlockEnd cx n → InItemEnd cx n
end

end Hongdown.Spec
