import Verif.Model.Document
import Verif.Spec.CodeMap
import Verif.Lemmas.Code

/-!
# Formatting with code formatters and formatting the formatted code

A run with code formatters is compared with a run without them on the tree whose code blocks
hold what the formatters give. The states of the two runs differ in their warnings only.
-/

namespace Hongdown.Model

open Spec

/-! ### States that differ in their warnings -/

/-- The states agree but for the warnings, of which the second has a part of those of the first,
and the same if `keep` holds. -/
def WRel (keep : Prop) (a b : St) : Prop :=
  ∃ w, b = { a with warnings := w } ∧ (w).Sublist a.warnings ∧ (keep → w = a.warnings)

/-- A step that neither reads nor writes warnings. -/
def Neutral (F : St → St) : Prop := ∀ st w, F { st with warnings := w } = { F st with warnings := w }

theorem Neutral.warnings {F : St → St} (h : Neutral F) (st : St) : (F st).warnings = st.warnings := by
  have := h st st.warnings
  have h2 : ({ st with warnings := st.warnings } : St) = st := rfl
  rw [h2] at this
  rw [this]

theorem Neutral.comp {F G : St → St} (hF : Neutral F) (hG : Neutral G) : Neutral (fun st => G (F st)) := by
  intro st w
  show G (F _) = _
  rw [hF, hG]

theorem WRel.neutral {keep : Prop} {F : St → St} (h : Neutral F) {a b : St} (r : WRel keep a b) :
    WRel keep (F a) (F b) := by
  obtain ⟨w, rfl, hs, hk⟩ := r
  exact ⟨w, h a w, by rw [h.warnings]; exact hs, fun k => by rw [h.warnings]; exact hk k⟩

theorem WRel.refl (keep : Prop) (a : St) : WRel keep a a := ⟨a.warnings, rfl, List.Sublist.refl _, fun _ => rfl⟩

theorem WRel.push {keep : Prop} {a b : St} (r : WRel keep a b) (s : List Char) :
    WRel keep (a.push s) (b.push s) := r.neutral (F := fun st => st.push s) fun _ _ => rfl

theorem WRel.addWarnings {keep : Prop} {a b : St} (r : WRel keep a b) (ws : List Warning) :
    WRel keep { a with warnings := a.warnings ++ ws } { b with warnings := b.warnings ++ ws } := by
  obtain ⟨w, rfl, hs, hk⟩ := r
  exact ⟨w ++ ws, rfl, hs.append (List.Sublist.refl _), fun k => by rw [hk k]⟩

theorem neutral_addReference (r : Ref) : Neutral (fun st => addReference st r) := by
  intro st w
  simp only [addReference]
  split <;> rfl

theorem neutral_foldl {α : Type} {g : St → α → St} (h : ∀ x, Neutral fun st => g st x) (l : List α) :
    Neutral fun st => l.foldl g st := by
  induction l with
  | nil => exact fun _ _ => rfl
  | cons x l ih => exact (h x).comp ih

theorem neutral_addReferences (rs : List Ref) : Neutral (fun st => addReferences st rs) :=
  neutral_foldl neutral_addReference rs

theorem neutral_ensureBlankLine : Neutral ensureBlankLine := by
  intro st w
  simp only [ensureBlankLine]
  split
  · rfl
  · split <;> rfl

theorem neutral_writeReferences (rs : List Ref) : Neutral (fun st => writeReferences st rs) :=
  neutral_foldl (fun _ _ _ => rfl) rs

theorem neutral_flushReferences : Neutral flushReferences := by
  intro st w
  simp only [flushReferences]
  split
  · rfl
  · split
    · rfl
    · exact (neutral_ensureBlankLine.comp (neutral_writeReferences _)) { st with pendingReferences := [] } w

theorem neutral_flushFootnotesBefore (cx : Cx) (b : Option Nat) : Neutral (flushFootnotesBefore cx b) := by
  intro st w
  simp only [flushFootnotesBefore]
  split
  · rfl
  · split
    · rfl
    · exact (neutral_ensureBlankLine.comp (neutral_foldl (g := writeFootnote cx) (fun _ _ _ => rfl) _))
        { st with footnotes := { st.footnotes with
            pending := (st.footnotes.pending.filter fun e => !st.footnotes.emitted.contains e.1).filter
              fun e => !dueBefore b e.2.referenceLine } } w

theorem neutral_flushFootnoteRefsBefore (b : Option Nat) : Neutral (flushFootnoteRefsBefore b) := by
  intro st w
  simp only [flushFootnoteRefsBefore]
  split
  · rfl
  · split
    · rfl
    · exact (neutral_ensureBlankLine.comp (neutral_writeReferences _))
        { st with footnotes := { st.footnotes with
            pendingReferences := (st.footnotes.pendingReferences.filter fun e =>
              !st.emittedReferences.contains e.1).filter fun e => !dueBefore b e.2.2 } } w

theorem neutral_flushAll (cx : Cx) (b : Option Nat) : Neutral (flushAll cx b) :=
  ((neutral_flushFootnotesBefore cx b).comp neutral_flushReferences).comp (neutral_flushFootnoteRefsBefore b)

theorem neutral_recordLines (ls : List (List Char × Nat)) : Neutral (recordLines ls) :=
  neutral_foldl (fun _ _ _ => rfl) ls

theorem neutral_outputTrailing (ns : List Node) : Neutral (outputTrailing ns) := by
  intro st w
  simp only [outputTrailing]
  split
  · rfl
  · exact (neutral_ensureBlankLine.comp (G := fun st => st.push _) fun _ _ => rfl) st w

/-! ### What does not depend on code formatters or code -/

section
variable (f : List Char → List Char → List Char) (cx : Cx)

theorem mapCodes_map (ns : List Node) : mapCodes f ns = ns.map (mapCode f) := by
  induction ns with
  | nil => rfl
  | cons n ns ih => simp only [mapCodes, List.map_cons, ih]

theorem mapCode_value (n : Node) : (mapCode f n).value = mapCodeValue f n.value := by
  cases n; rfl

theorem mapCode_pos (n : Node) : (mapCode f n).pos = n.pos := by
  cases n; rfl

theorem mapCode_children (n : Node) : (mapCode f n).children = mapCodes f n.children := by
  cases n; rfl

theorem mapCode_isImage (n : Node) : (mapCode f n).isImage = n.isImage := by
  obtain ⟨v, p, cs⟩ := n; cases v <;> rfl

theorem mapCode_isItem (n : Node) : (mapCode f n).isItem = n.isItem := by
  obtain ⟨v, p, cs⟩ := n; cases v <;> rfl

theorem mapCode_isList (n : Node) : (mapCode f n).isList = n.isList := by
  obtain ⟨v, p, cs⟩ := n; cases v <;> rfl

theorem mapCode_isCodeBlock (n : Node) : (mapCode f n).isCodeBlock = n.isCodeBlock := by
  obtain ⟨v, p, cs⟩ := n; cases v <;> rfl

theorem mapCode_isQuote (n : Node) : (mapCode f n).isQuote = n.isQuote := by
  obtain ⟨v, p, cs⟩ := n; cases v <;> rfl

theorem mapCode_endsLine (n : Node) : endsLine (mapCode f n) = endsLine n := by
  simp only [endsLine, mapCode_isList, mapCode_isCodeBlock, mapCode_isQuote]

theorem mapCode_directive (n : Node) : (mapCode f n).directive = n.directive := by
  obtain ⟨v, p, cs⟩ := n; cases v <;> rfl

theorem mapCode_headingLevel (n : Node) : (mapCode f n).headingLevel = n.headingLevel := by
  obtain ⟨v, p, cs⟩ := n; cases v <;> rfl

theorem mapCode_html? (n : Node) : (mapCode f n).html? = n.html? := by
  obtain ⟨v, p, cs⟩ := n; cases v <;> rfl

theorem mapCode_isFootnoteDefinition (n : Node) :
    (mapCode f n).isFootnoteDefinition = n.isFootnoteDefinition := by
  obtain ⟨v, p, cs⟩ := n; cases v <;> rfl

theorem mapCode_isFrontMatter (n : Node) : (mapCode f n).isFrontMatter = n.isFrontMatter := by
  obtain ⟨v, p, cs⟩ := n; cases v <;> rfl

theorem mapCode_isPlainHtml (n : Node) : (mapCode f n).isPlainHtml = n.isPlainHtml := by
  simp only [Node.isPlainHtml, mapCode_html?, mapCode_directive]

theorem nextIsBracket_mapCodes (ns : List Node) : nextIsBracket (mapCodes f ns) = nextIsBracket ns := by
  cases ns with
  | nil => rfl
  | cons n ns => obtain ⟨v, p, cs⟩ := n; cases v <;> rfl

theorem any_isImage_mapCodes (ns : List Node) : (mapCodes f ns).any Node.isImage = ns.any Node.isImage := by
  rw [mapCodes_map, List.any_map]
  congr 1
  funext n
  exact mapCode_isImage f n

mutual
theorem rawText_mapCode : ∀ n : Node, rawText (mapCode f n) = rawText n
  | .mk v p cs => by
    have h := rawTexts_mapCodes cs
    cases v <;> first | rfl | exact h
theorem rawTexts_mapCodes : ∀ ns : List Node, rawTexts (mapCodes f ns) = rawTexts ns
  | [] => rfl
  | n :: ns => by rw [mapCodes, rawTexts, rawTexts, rawText_mapCode n, rawTexts_mapCodes ns]
end

mutual
theorem nodeTextContains_mapCode (c : Char) : ∀ n : Node, nodeTextContains c (mapCode f n) = nodeTextContains c n
  | .mk v p cs => by
    have h := nodesTextContain_mapCodes c cs
    cases v <;> first | rfl | exact h
theorem nodesTextContain_mapCodes (c : Char) :
    ∀ ns : List Node, nodesTextContain c (mapCodes f ns) = nodesTextContain c ns
  | [] => rfl
  | n :: ns => by
    rw [mapCodes, nodesTextContain, nodesTextContain, nodeTextContains_mapCode c n, nodesTextContain_mapCodes c ns]
end

theorem emphDelimiter_mapCode (n : Node) : emphDelimiter (noFormatters cx) (mapCode f n) = emphDelimiter cx n := by
  simp only [emphDelimiter, nodeTextContains_mapCode, mapCode_pos]; rfl

theorem strongDelimiter_mapCode (n : Node) :
    strongDelimiter (noFormatters cx) (mapCode f n) = strongDelimiter cx n := by
  simp only [strongDelimiter, nodeTextContains_mapCode, mapCode_pos]; rfl

mutual
theorem collectText_mapCode : ∀ n : Node, collectText (noFormatters cx) (mapCode f n) = collectText cx n
  | .mk v p cs => by
    have h := collectTexts_mapCodes cs
    have hr := rawTexts_mapCodes f cs
    have he := emphDelimiter_mapCode f cx (.mk v p cs)
    have hs := strongDelimiter_mapCode f cx (.mk v p cs)
    cases v <;> simp only [mapCode, mapCodeValue, collectText] at he hs ⊢ <;>
      first | rfl | exact h | (rw [he, h]) | (rw [hs, h]) | (rw [hr]; done) | (rw [hr]; rfl)
theorem collectTexts_mapCodes : ∀ ns : List Node,
    collectTexts (noFormatters cx) (mapCodes f ns) = collectTexts cx ns
  | [] => rfl
  | n :: ns => by
    rw [mapCodes, collectTexts, collectTexts, collectText_mapCode n, collectTexts_mapCodes ns]
end

mutual
theorem collectInline_mapCode (b : Bool) : ∀ n : Node,
    collectInline (noFormatters cx) b (mapCode f n) = collectInline cx b n
  | .mk v p cs => by
    have h := collectInlines_mapCodes cs
    have hr := rawTexts_mapCodes f cs
    have hi := any_isImage_mapCodes f cs
    have he := emphDelimiter_mapCode f cx (.mk v p cs)
    have hs := strongDelimiter_mapCode f cx (.mk v p cs)
    cases v <;> simp only [mapCode, mapCodeValue, collectInline] at he hs ⊢ <;>
      first | rfl | exact h | (rw [he, h]) | (rw [hs, h]) | (rw [hr, hi, h]; rfl) | (rw [h]; rfl)
theorem collectInlines_mapCodes : ∀ ns : List Node,
    collectInlines (noFormatters cx) (mapCodes f ns) = collectInlines cx ns
  | [] => rfl
  | n :: ns => by
    rw [mapCodes, collectInlines, collectInlines, nextIsBracket_mapCodes, collectInline_mapCode _ n,
      collectInlines_mapCodes ns]
end

mutual
theorem footnoteRefLines_mapCode : ∀ n : Node, footnoteRefLines (mapCode f n) = footnoteRefLines n
  | .mk v p cs => by
    have h := footnoteRefLinesList_mapCodes cs
    cases v <;> simp only [mapCode, mapCodeValue, footnoteRefLines, h]
theorem footnoteRefLinesList_mapCodes : ∀ ns : List Node,
    footnoteRefLinesList (mapCodes f ns) = footnoteRefLinesList ns
  | [] => rfl
  | n :: ns => by
    rw [mapCodes, footnoteRefLinesList, footnoteRefLinesList, footnoteRefLines_mapCode n,
      footnoteRefLinesList_mapCodes ns]
end

mutual
theorem walkRefs_mapCode (sl ab df : List (List Char)) : ∀ n : Node,
    walkRefs sl ab df (mapCode f n) = walkRefs sl ab df n
  | .mk v p cs => by
    have h := walkRefsList_mapCodes sl ab df cs
    cases v <;> simp only [mapCode, mapCodeValue, walkRefs, h]
theorem walkRefsList_mapCodes (sl ab df : List (List Char)) : ∀ ns : List Node,
    walkRefsList sl ab df (mapCodes f ns) = walkRefsList sl ab df ns
  | [] => rfl
  | n :: ns => by
    rw [mapCodes, walkRefsList, walkRefsList, walkRefs_mapCode sl ab df n, walkRefsList_mapCodes sl ab df ns]
end

theorem lineBefore_mapCodes (g : Node → Bool) (hg : ∀ n, g (mapCode f n) = g n) (ns : List Node) :
    lineBefore g (mapCodes f ns) = lineBefore g ns := by
  simp only [lineBefore]
  induction ns with
  | nil => rfl
  | cons n ns ih =>
    rw [mapCodes, List.find?_cons, List.find?_cons, hg]
    cases g n with
    | true => simp only [mapCode_pos]
    | false => exact ih

theorem disabledRange_mapCode (n : Node) (ns : List Node) :
    disabledRange (mapCode f n) (mapCodes f ns) = disabledRange n ns := by
  simp only [disabledRange, mapCode_directive, mapCode_pos]
  rw [lineBefore_mapCodes f _ (fun n => by rw [mapCode_headingLevel]),
    lineBefore_mapCodes f _ (fun n => by rw [mapCode_directive])]
  cases ns with
  | nil => rfl
  | cons m ms => simp only [mapCodes, mapCode_directive, mapCode_pos]

theorem disabledRanges_mapCodes (ns : List Node) : disabledRanges (mapCodes f ns) = disabledRanges ns := by
  induction ns with
  | nil => rfl
  | cons n ns ih => rw [mapCodes, disabledRanges, disabledRanges, ih, disabledRange_mapCode]

theorem undefinedWarnings_mapCodes (ns : List Node) :
    undefinedWarnings (noFormatters cx) (mapCodes f ns) = undefinedWarnings cx ns := by
  simp only [undefinedWarnings, walkRefsList_mapCodes, disabledRanges_mapCodes]; rfl

theorem trailingCount_map (ns : List Node) : trailingCount (ns.map (mapCode f)) = trailingCount ns := by
  induction ns with
  | nil => rfl
  | cons n ns ih =>
    simp only [List.map_cons, trailingCount, ih, mapCode_isPlainHtml, mapCode_isFootnoteDefinition]

theorem trailingStart_mapCodes (ns : List Node) : trailingStart (mapCodes f ns) = trailingStart ns := by
  rw [trailingStart, trailingStart, mapCodes_map, ← List.map_reverse, trailingCount_map, List.length_map]

theorem outputTrailing_map (ns : List Node) (st : St) :
    outputTrailing (ns.map (mapCode f)) st = outputTrailing ns st := by
  simp only [outputTrailing, List.filterMap_map]
  rw [show Node.html? ∘ mapCode f = Node.html? from funext (mapCode_html? f)]

theorem hasBlocks_mapCodes (ns : List Node) : hasBlocks (mapCodes f ns) = hasBlocks ns := by
  have h1 : ∀ n : Node, ((mapCode f n).value = .paragraph) = (n.value = .paragraph) := by
    intro n
    obtain ⟨v, p, cs⟩ := n
    cases v <;> simp [mapCode, mapCodeValue, Node.value]
  simp only [hasBlocks, mapCodes_map, List.any_map, List.filter_map, List.length_map]
  congr 1
  · congr 1
    funext n
    obtain ⟨v, p, cs⟩ := n
    cases v <;> rfl
  · congr 2
    congr 1
    congr 1
    funext n
    simp only [Function.comp, h1]

theorem blockGap_mapCode (prev : Option Node) (n : Node) :
    blockGap (prev.map (mapCode f)) (mapCode f n) = blockGap prev n := by
  cases prev with
  | none => rfl
  | some q => simp only [Option.map_some, blockGap, mapCode_isFrontMatter, mapCode_headingLevel]

theorem cellInline_mapCode (n : Node) : cellInline (noFormatters cx) (mapCode f n) = cellInline cx n := by
  simp only [cellInline, mapCode_children, collectInlines_mapCodes]

end

/-! ### Blocks -/

/-- The code a formatter gives for a code block. -/
def formattedCode (cx : Cx) (info code : List Char) : List Char := (codeContent cx info code).1

section
variable {cx : Cx} {keep : Prop} {a b : St}

theorem addCodeWarning_rel (info code : List Char) (h : keep → (codeContent cx info code).2 = none)
    (r : WRel keep a b) : WRel keep (addCodeWarning a (codeContent cx info code).2) b := by
  obtain ⟨w, rfl, hs, hk⟩ := r
  cases hc : (codeContent cx info code).2 with
  | none => exact ⟨w, rfl, hs, hk⟩
  | some m =>
    refine ⟨w, rfl, hs.trans (List.sublist_append_left _ _), fun k => ?_⟩
    rw [h k] at hc
    cases hc

theorem addCodeWarning_inBlockQuote (st : St) (m : Option (List Char)) :
    (addCodeWarning st m).inBlockQuote = st.inBlockQuote := by cases m <;> rfl

theorem WRel.inBlockQuote (r : WRel keep a b) : b.inBlockQuote = a.inBlockQuote := by
  obtain ⟨w, rfl, -⟩ := r; rfl

theorem serCodeBlock_rel (info code : List Char) (h : keep → (codeContent cx info code).2 = none)
    (r : WRel keep a b) :
    WRel keep (serCodeBlock cx info code a) (serCodeBlock (noFormatters cx) info (formattedCode cx info code) b) := by
  simp only [serCodeBlock, codeContent_nil (cx := noFormatters cx) ⟨rfl, rfl⟩, r.inBlockQuote]
  exact (addCodeWarning_rel info code h r).push _

theorem serCodeBlockIndented_rel (info code indent : List Char)
    (h : keep → (codeContent cx info code).2 = none) (r : WRel keep a b) :
    WRel keep (serCodeBlockIndented cx info code indent a)
      (serCodeBlockIndented (noFormatters cx) info (formattedCode cx info code) indent b) := by
  simp only [serCodeBlockIndented, codeContent_nil (cx := noFormatters cx) ⟨rfl, rfl⟩, r.inBlockQuote]
  exact (addCodeWarning_rel info code h r).push _

theorem serCodeBlockWithIndent_rel (info code indent : List Char)
    (h : keep → (codeContent cx info code).2 = none) (r : WRel keep a b) :
    WRel keep (serCodeBlockWithIndent cx info code indent a)
      (serCodeBlockWithIndent (noFormatters cx) info (formattedCode cx info code) indent b) := by
  simp only [serCodeBlockWithIndent, codeContent_nil (cx := noFormatters cx) ⟨rfl, rfl⟩]
  exact (addCodeWarning_rel info code h r).push _

/-! ### Children -/

/-- The children correspond. -/
structure KidRel (cx : Cx) (keep : Prop) (k k' : Kid) : Prop where
  node : k'.node = mapCode (formattedCode cx) k.node
  act : ∀ {a b}, WRel keep a b → WRel keep (k.act a) (k'.act b)
  code : keep → ∀ info code, k.node.value = .codeBlock info code → (codeContent cx info code).2 = none

/-- The lists of children correspond. -/
inductive KidsRel (cx : Cx) (keep : Prop) : List Kid → List Kid → Prop
  | nil : KidsRel cx keep [] []
  | cons {k k' : Kid} {ks ks' : List Kid} : KidRel cx keep k k' → KidsRel cx keep ks ks' →
      KidsRel cx keep (k :: ks) (k' :: ks')

theorem KidsRel.nodes {ks ks' : List Kid} (h : KidsRel cx keep ks ks') :
    ks'.map (·.node) = mapCodes (formattedCode cx) (ks.map (·.node)) := by
  induction h with
  | nil => rfl
  | cons hk _ ih => simp only [List.map_cons, mapCodes, hk.node, ih]

theorem KidsRel.nodes' {ks ks' : List Kid} (h : KidsRel cx keep ks ks') :
    ks'.map (·.node) = (ks.map (·.node)).map (mapCode (formattedCode cx)) := by
  rw [h.nodes, mapCodes_map]

theorem KidsRel.runKids {ks ks' : List Kid} (h : KidsRel cx keep ks ks') {a b : St} (r : WRel keep a b) :
    WRel keep (runKids ks a) (runKids ks' b) := by
  induction h generalizing a b with
  | nil => exact r
  | cons hk _ ih => exact ih (hk.act r)

theorem KidsRel.filter {ks ks' : List Kid} (h : KidsRel cx keep ks ks') (g : Kid → Bool)
    (hg : ∀ k k', KidRel cx keep k k' → g k' = g k) : KidsRel cx keep (ks.filter g) (ks'.filter g) := by
  induction h with
  | nil => exact .nil
  | cons hk _ ih =>
    rw [List.filter_cons, List.filter_cons, hg _ _ hk]
    split
    · exact .cons hk ih
    · exact ih

theorem KidsRel.length {ks ks' : List Kid} (h : KidsRel cx keep ks ks') : ks'.length = ks.length := by
  induction h with
  | nil => rfl
  | cons _ _ ih => simp only [List.length_cons, ih]

theorem serHeading_rel (level : Nat) (ns : List Node) (r : WRel keep a b) :
    WRel keep (serHeading cx level ns a)
      (serHeading (noFormatters cx) level (mapCodes (formattedCode cx) ns) b) := by
  have hn : headingNouns (noFormatters cx) b = headingNouns cx a := by obtain ⟨w, rfl, -⟩ := r; rfl
  simp only [serHeading, collectTexts_mapCodes, hn]
  exact (r.neutral (neutral_addReferences _)).push _

theorem serParagraph_rel (p : Pos) (ns : List Node) (r : WRel keep a b) :
    WRel keep (serParagraph cx p ns a)
      (serParagraph (noFormatters cx) p (mapCodes (formattedCode cx) ns) b) := by
  unfold serParagraph
  rw [show abbreviationDef (noFormatters cx) p = abbreviationDef cx p from rfl]
  cases abbreviationDef cx p with
  | some src => exact r.push _
  | none =>
    simp only [collectInlines_mapCodes]
    have r2 := r.neutral (neutral_addReferences (collectInlines cx ns).2)
    revert r2
    generalize addReferences a (collectInlines cx ns).2 = a2
    generalize addReferences b (collectInlines cx ns).2 = b2
    intro r2
    have h1 : b2.listType = a2.listType := by obtain ⟨w, rfl, -⟩ := r2; rfl
    have h2 : paragraphContinuation (noFormatters cx) b2 = paragraphContinuation cx a2 := by
      obtain ⟨w, rfl, -⟩ := r2; rfl
    have h3 : quotePrefix b2 = quotePrefix a2 := by obtain ⟨w, rfl, -⟩ := r2; rfl
    rw [h1, h2, h3]
    split
    · exact r2.push _
    · exact r2.push _

theorem serThematicBreak_rel (r : WRel keep a b) :
    WRel keep (serThematicBreak cx a) (serThematicBreak (noFormatters cx) b) :=
  r.neutral (F := serThematicBreak cx) fun _ _ => rfl

theorem serTable_rel (p : Pos) (aligns : List Align) (rows : List Node) (r : WRel keep a b) :
    WRel keep (serTable cx p aligns rows a)
      (serTable (noFormatters cx) p aligns (mapCodes (formattedCode cx) rows) b) := by
  have hc : (mapCodes (formattedCode cx) rows).map (fun n => n.children.map (cellInline (noFormatters cx))) =
      rows.map fun n => n.children.map (cellInline cx) := by
    rw [mapCodes_map, List.map_map]
    apply List.map_congr_left
    intro n _
    simp only [Function.comp, mapCode_children, mapCodes_map, List.map_map]
    apply List.map_congr_left
    intro c _
    exact cellInline_mapCode _ _ _
  have he : (mapCodes (formattedCode cx) rows).isEmpty = rows.isEmpty := by
    rw [mapCodes_map]; cases rows <;> rfl
  simp only [serTable, hc, he]
  split
  · exact r
  · have r2 := (r.addWarnings (tableWarnings cx.sourceLines p aligns.length)).neutral
      (neutral_addReferences ((rows.map fun n => n.children.map (cellInline cx)).flatten.flatMap (·.2)))
    have := r2.inBlockQuote
    simp only [show (noFormatters cx).sourceLines = cx.sourceLines from rfl,
      show (noFormatters cx).width = cx.width from rfl] at this ⊢
    rw [this]
    exact r2.push _

theorem serList_rel (type : ListType) (tight : Bool) {ks ks' : List Kid} (h : KidsRel cx keep ks ks')
    (r : WRel keep a b) : WRel keep (serList type tight ks a) (serList type tight ks' b) := by
  have hl := (h.filter (fun k => k.node.isItem) (fun k k' hk => by rw [hk.node, mapCode_isItem])).length
  simp only [serList, hl]
  obtain ⟨w, rfl, hs, hk⟩ := r
  have r2 := h.runKids (r := (⟨w, rfl, hs, hk⟩ : WRel keep
    { a with
      listType := some type
      listTight := tight
      listItemIndex := 0
      listDepth := a.listDepth + 1
      orderedListMaxItems := if type = .ordered then (ks.filter fun k => k.node.isItem).length
        else a.orderedListMaxItems }
    { a with
      warnings := w
      listType := some type
      listTight := tight
      listItemIndex := 0
      listDepth := a.listDepth + 1
      orderedListMaxItems := if type = .ordered then (ks.filter fun k => k.node.isItem).length
        else a.orderedListMaxItems }))
  exact r2.neutral (F := fun st => { st with
    listDepth := st.listDepth - 1
    listType := a.listType
    listTight := a.listTight
    listItemIndex := a.listItemIndex
    orderedListMaxItems := a.orderedListMaxItems }) fun _ _ => rfl

theorem serItemChild_rel (indent : List Char) (prev : Option Node) {k k' : Kid} (h : KidRel cx keep k k')
    (r : WRel keep a b) :
    WRel keep (serItemChild cx indent prev k a)
      (serItemChild (noFormatters cx) indent (prev.map (mapCode (formattedCode cx))) k' b) := by
  obtain ⟨⟨v, p, cs⟩, act⟩ := k
  obtain ⟨n', act'⟩ := k'
  have hn : n' = mapCode (formattedCode cx) (.mk v p cs) := h.node
  subst hn
  have hq := r.inBlockQuote
  cases v <;> simp only [serItemChild, mapCode, mapCodeValue, Node.value, Node.pos, hq]
  case list t g =>
    cases prev with
    | none => exact h.act (r.push _)
    | some q =>
      obtain ⟨v, p', cs'⟩ := q
      exact h.act (r.push _)
  case paragraph =>
    cases prev with
    | none => exact h.act r
    | some q =>
      simp only [Option.map_some, mapCode_isCodeBlock, mapCode_isList]
      exact h.act (r.push _)
  case codeBlock info code =>
    exact serCodeBlockIndented_rel info code indent (fun k => h.code k info code rfl) (r.push _)
  case blockQuote =>
    rw [show (prev.map (mapCode (formattedCode cx))).isSome = prev.isSome from Option.isSome_map]
    exact h.act (r.push _)
  case alert t title =>
    rw [show (prev.map (mapCode (formattedCode cx))).isSome = prev.isSome from Option.isSome_map]
    exact h.act (r.push _)
  all_goals exact h.act r

theorem serItemChildren_rel (indent : List Char) {ks ks' : List Kid} (h : KidsRel cx keep ks ks') :
    ∀ (prev : Option Node) {a b : St}, WRel keep a b →
    WRel keep (serItemChildren cx indent prev ks a)
      (serItemChildren (noFormatters cx) indent (prev.map (mapCode (formattedCode cx))) ks' b) := by
  induction h with
  | nil => exact fun _ _ _ r => r
  | @cons k k' _ _ hk _ ih =>
    intro prev a b r
    rw [serItemChildren, serItemChildren]
    have := ih (some k.node) (serItemChild_rel indent prev hk r)
    rw [Option.map_some, ← hk.node] at this
    exact this

theorem KidsRel.getLast {ks ks' : List Kid} (h : KidsRel cx keep ks ks') (g : Node → Bool)
    (hg : ∀ n, g (mapCode (formattedCode cx) n) = g n) :
    (ks'.getLast?.any fun k => g k.node) = ks.getLast?.any fun k => g k.node := by
  induction h with
  | nil => rfl
  | cons hk hks ih =>
    cases hks with
    | nil => simp only [List.getLast?_singleton, Option.any_some, hk.node, hg]
    | cons _ _ => simpa only [List.getLast?_cons_cons] using ih

theorem serItem_rel (task : Option (Option Char)) {ks ks' : List Kid} (h : KidsRel cx keep ks ks')
    (r : WRel keep a b) : WRel keep (serItem cx task ks a) (serItem (noFormatters cx) task ks' b) := by
  have hl := h.getLast endsLine (mapCode_endsLine _)
  obtain ⟨w, rfl, hs, hk⟩ := r
  simp only [serItem]
  rw [hl]
  have r2 : WRel keep
      (({ a with listItemIndex := a.listItemIndex + 1 } : St).push
        (itemLead cx task { a with listItemIndex := a.listItemIndex + 1 }))
      (({ a with warnings := w, listItemIndex := a.listItemIndex + 1 } : St).push
        (itemLead (noFormatters cx) task { a with warnings := w, listItemIndex := a.listItemIndex + 1 })) :=
    ⟨w, rfl, hs, hk⟩
  revert r2
  generalize ({ a with listItemIndex := a.listItemIndex + 1 } : St).push
        (itemLead cx task { a with listItemIndex := a.listItemIndex + 1 }) = a2
  intro r2
  obtain ⟨w2, hb, hs2, hk2⟩ := r2
  rw [hb]
  have r3 := serItemChildren_rel (cx := cx) (itemIndent cx a2) h none
    (a := { a2 with listItemIndent := itemIndent cx a2 })
    (b := { a2 with warnings := w2, listItemIndent := itemIndent cx a2 }) ⟨w2, rfl, hs2, hk2⟩
  have r4 := r3.neutral (F := fun st => { st with listItemIndent := a2.listItemIndent }) fun _ _ => rfl
  split
  · exact r4
  · exact r4.push _

theorem serQuoteChildren_rel (sep : List Char) {ks ks' : List Kid} (h : KidsRel cx keep ks ks') :
    ∀ {a b : St}, WRel keep a b → WRel keep (serQuoteChildren sep ks a) (serQuoteChildren sep ks' b) := by
  induction h with
  | nil => exact fun r => r
  | cons hk hks ih =>
    intro a b r
    cases hks with
    | nil => exact hk.act r
    | cons h1 h2 => exact ih ((hk.act r).push _)

theorem serBlockQuote_rel {ks ks' : List Kid} (h : KidsRel cx keep ks ks') (r : WRel keep a b) :
    WRel keep (serBlockQuote ks a) (serBlockQuote ks' b) := by
  have r2 := r.neutral (F := enterQuote) fun _ _ => rfl
  obtain ⟨w, rfl, hs, hk⟩ := r
  exact (serQuoteChildren_rel _ h r2).neutral (F := exitQuote a) fun _ _ => rfl

theorem KidsRel.head {ks ks' : List Kid} (h : KidsRel cx keep ks ks') (g : Node → Bool)
    (hg : ∀ n, g (mapCode (formattedCode cx) n) = g n) :
    (ks'.head?.any fun k => g k.node) = ks.head?.any fun k => g k.node := by
  cases h with
  | nil => rfl
  | cons hk _ => simp only [List.head?_cons, Option.any_some, hk.node, hg]

theorem serAlert_rel (type : AlertType) (p : Pos) {ks ks' : List Kid} (h : KidsRel cx keep ks ks')
    (r : WRel keep a b) : WRel keep (serAlert type p ks a) (serAlert type p ks' b) := by
  have hh := h.head (fun n => p.startLine + 1 < n.pos.startLine) (fun n => by rw [mapCode_pos])
  obtain ⟨w, rfl, hs, hk⟩ := r
  have r : WRel keep a { a with warnings := w } := ⟨w, rfl, hs, hk⟩
  simp only [serAlert, hh]
  split
  · exact serBlockQuote_rel h ((r.push _).push _)
  · exact serBlockQuote_rel h (r.push _)

theorem serDetailsParagraph_rel (bq lead : List Char) (ns : List Node) (r : WRel keep a b) :
    WRel keep (serDetailsParagraph cx bq lead ns a)
      (serDetailsParagraph (noFormatters cx) bq lead (mapCodes (formattedCode cx) ns) b) := by
  simp only [serDetailsParagraph, collectInlines_mapCodes]
  exact (r.neutral (neutral_addReferences _)).push _

theorem withIndent4_rel {k k' : Kid} (h : KidRel cx keep k k') (r : WRel keep a b) :
    WRel keep (withIndent4 k a) (withIndent4 k' b) := by
  obtain ⟨w, rfl, hs, hk⟩ := r
  exact (h.act (a := { a with listItemIndent := spaces 4 })
    (b := { a with warnings := w, listItemIndent := spaces 4 }) ⟨w, rfl, hs, hk⟩).neutral
    (F := fun st => { st with listItemIndent := a.listItemIndent }) fun _ _ => rfl

theorem serDetailsChild_rel (bq : List Char) (first : Bool) {k k' : Kid} (h : KidRel cx keep k k')
    (r : WRel keep a b) :
    WRel keep (serDetailsChild cx bq first k a) (serDetailsChild (noFormatters cx) bq first k' b) := by
  obtain ⟨⟨v, p, cs⟩, act⟩ := k
  obtain ⟨n', act'⟩ := k'
  have hn : n' = mapCode (formattedCode cx) (.mk v p cs) := h.node
  subst hn
  cases first
  · cases v <;> simp only [serDetailsChild, mapCode, mapCodeValue, Node.value, Node.children, Bool.false_eq_true,
      if_false]
    case paragraph => exact serDetailsParagraph_rel _ _ cs (r.push _)
    case codeBlock info code =>
      exact serCodeBlockWithIndent_rel info code _ (fun k => h.code k info code rfl) ((r.push _).push _)
    case blockQuote => exact withIndent4_rel h (r.push _)
    case alert => exact withIndent4_rel h (r.push _)
    case list => exact h.act (r.push _)
    all_goals exact h.act ((r.push _).push _)
  · cases v <;> simp only [serDetailsChild, mapCode, mapCodeValue, Node.value, Node.children, if_true]
    case paragraph => exact serDetailsParagraph_rel _ _ cs r
    case codeBlock info code =>
      exact serCodeBlockWithIndent_rel info code _ (fun k => h.code k info code rfl) (r.push _)
    case list =>
      exact (h.act ((r.push _).neutral (F := fun st => { st with descriptionDetailsFirstList := true })
        fun _ _ => rfl)).neutral (F := fun st => { st with descriptionDetailsFirstList := false }) fun _ _ => rfl
    case blockQuote => exact withIndent4_rel h (r.push _)
    case alert => exact withIndent4_rel h (r.push _)
    all_goals exact h.act (r.push _)

theorem serDetails_rel {ks ks' : List Kid} (h : KidsRel cx keep ks ks') (r : WRel keep a b) :
    WRel keep (serDetails cx ks a) (serDetails (noFormatters cx) ks' b) := by
  have hfold : ∀ (bq : List Char) {ks ks' : List Kid}, KidsRel cx keep ks ks' → ∀ {a b : St}, WRel keep a b →
      WRel keep (ks.foldl (fun st k => serDetailsChild cx bq false k st) a)
        (ks'.foldl (fun st k => serDetailsChild (noFormatters cx) bq false k st) b) := by
    intro bq ks ks' h
    induction h with
    | nil => exact fun r => r
    | cons hk _ ih => exact fun r => ih (serDetailsChild_rel bq false hk r)
  have r2 := r.neutral (F := fun st => { st with inDescriptionDetails := true }) fun _ _ => rfl
  obtain ⟨w, rfl, hs, hk⟩ := r
  cases h with
  | nil => exact r2.neutral (F := fun st => { st with inDescriptionDetails := a.inDescriptionDetails }) fun _ _ => rfl
  | cons hk hks =>
    exact (hfold (quotePrefix a) hks (serDetailsChild_rel (quotePrefix a) true hk r2)).neutral
      (F := fun st => { st with inDescriptionDetails := a.inDescriptionDetails }) fun _ _ => rfl

theorem serDescriptionList_rel {ks ks' : List Kid} (h : KidsRel cx keep ks ks') :
    ∀ {a b : St}, WRel keep a b → WRel keep (serDescriptionList ks a) (serDescriptionList ks' b) := by
  induction h with
  | nil => exact fun r => r
  | cons hk hks ih =>
    intro a b r
    cases hks with
    | nil => exact hk.act r
    | cons h1 h2 =>
      exact ih ((hk.act r).neutral (F := fun st => st.push (if st.inBlockQuote then
        st.listItemIndent ++ trimEnd st.blockquotePrefix ++ ['\n'] else ['\n'])) fun _ _ => rfl)

theorem serLink_rel (p : Pos) (url title : List Char) (nb : Bool) {ks ks' : List Kid}
    (h : KidsRel cx keep ks ks') (r : WRel keep a b) :
    WRel keep (serLink cx p url title nb ks a) (serLink (noFormatters cx) p url title nb ks' b) := by
  have hi : (ks'.any fun k => k.node.isImage) = ks.any fun k => k.node.isImage := by
    have h1 : ∀ l : List Kid, (l.any fun k => k.node.isImage) = (l.map (·.node)).any Node.isImage := by
      intro l; rw [List.any_map]; rfl
    rw [h1, h1, h.nodes, any_isImage_mapCodes]
  simp only [serLink, hi, h.nodes, rawTexts_mapCodes, collectTexts_mapCodes,
    show referenceStyleInfo (noFormatters cx) p = referenceStyleInfo cx p from rfl]
  cases referenceStyleInfo cx p with
  | some tl =>
    simp only
    split
    · exact ((h.runKids (r.push _)).push _).neutral (neutral_addReference _)
    · exact (r.neutral (neutral_addReferences _)).push _
  | none =>
    simp only
    split
    · exact (h.runKids (r.push _)).push _
    · split
      · exact r.push _
      · split
        · exact ((r.neutral (neutral_addReferences _)).neutral (neutral_addReferences _)).push _
        · exact (r.neutral (neutral_addReferences _)).push _

theorem serImage_rel (p : Pos) (url title : List Char) (ns : List Node) (r : WRel keep a b) :
    WRel keep (serImage cx p url title ns a)
      (serImage (noFormatters cx) p url title (mapCodes (formattedCode cx) ns) b) := by
  simp only [serImage, collectTexts_mapCodes,
    show referenceStyleInfo (noFormatters cx) p = referenceStyleInfo cx p from rfl]
  cases referenceStyleInfo cx p with
  | some tl => exact ((r.neutral (neutral_addReferences _)).neutral (neutral_addReferences _)).push _
  | none => exact (r.neutral (neutral_addReferences _)).push _

theorem footnoteBlocks_rel {ks ks' : List Kid} (h : KidsRel cx keep ks ks') :
    ∀ (first : Bool) (acc : List Char) {a b : St}, WRel keep a b →
      (footnoteBlocks first ks' acc b).1 = (footnoteBlocks first ks acc a).1 ∧
      WRel keep (footnoteBlocks first ks acc a).2 (footnoteBlocks first ks' acc b).2 := by
  induction h with
  | nil => exact fun _ _ _ _ r => ⟨rfl, r⟩
  | cons hk _ ih =>
    intro first acc a b r
    have r2 := hk.act (r.neutral (F := fun st => { st with output := [] }) fun _ _ => rfl)
    simp only [footnoteBlocks]
    obtain ⟨w, hb, hs, hk⟩ := r2
    rw [hb]
    have ho : b.output = a.output := by obtain ⟨w, rfl, -⟩ := r; rfl
    rw [ho]
    exact ih _ _ ⟨w, rfl, hs, hk⟩

theorem serFootnoteDefinition_rel (name : List Char) {ks ks' : List Kid} (h : KidsRel cx keep ks ks')
    (r : WRel keep a b) :
    WRel keep (serFootnoteDefinition cx name ks a) (serFootnoteDefinition (noFormatters cx) name ks' b) := by
  simp only [serFootnoteDefinition, h.nodes, hasBlocks_mapCodes, collectInlines_mapCodes]
  obtain ⟨w, rfl, hs, hk⟩ := r
  generalize hline : (a.footnotes.referenceLines.lookup name).getD 0 = line
  have r : WRel keep
      { a with footnotes := { a.footnotes with collecting := true, currentReferenceLine := line } }
      { a with warnings := w, footnotes := { a.footnotes with collecting := true, currentReferenceLine := line } } :=
    ⟨w, rfl, hs, hk⟩
  cases hasBlocks (ks.map (·.node)) with
  | true =>
    obtain ⟨h1, h2⟩ := footnoteBlocks_rel h true [] r
    simp only [if_true]
    rw [h1]
    exact h2.neutral (F := fun st => { st with footnotes := { st.footnotes with
      collecting := false
      currentReferenceLine := 0
      pending := mapInsert name ⟨name, _, line, true⟩ st.footnotes.pending } }) fun _ _ => rfl
  | false =>
    simp only [Bool.false_eq_true, if_false]
    exact (r.neutral (neutral_addReferences _)).neutral (F := fun st => { st with footnotes := { st.footnotes with
      collecting := false
      currentReferenceLine := 0
      pending := mapInsert name ⟨name, _, line, false⟩ st.footnotes.pending } }) fun _ _ => rfl

/-! ### The document -/

theorem serTopBlock_rel {k k' : Kid} (h : KidRel cx keep k k') (r : WRel keep a b) :
    WRel keep (serTopBlock cx k a) (serTopBlock (noFormatters cx) k' b) := by
  have hm : b.skipMode = a.skipMode := by obtain ⟨w, rfl, -⟩ := r; rfl
  have hx : extractSource (noFormatters cx) k.node.pos = extractSource cx k.node.pos := rfl
  simp only [serTopBlock, hm, h.node, mapCode_headingLevel, mapCode_pos, hx]
  have hn := r.neutral (F := fun st => { st with skipMode := .none }) fun _ _ => rfl
  split
  · exact h.act r
  · split
    · exact h.act hn
    · by_cases hb : a.skipMode = .nextBlock
      · simp only [if_pos hb]
        cases extractSource cx k.node.pos with
        | some s => exact hn.push _
        | none => exact h.act hn
      · simp only [if_neg hb]
        cases extractSource cx k.node.pos with
        | some s => exact r.push _
        | none => exact h.act r

theorem serTopChild_rel (prev : Option Node) (trailing : Bool) {k k' : Kid} (h : KidRel cx keep k k')
    (r : WRel keep a b) :
    (serTopChild (noFormatters cx) (prev.map (mapCode (formattedCode cx))) trailing k' b).2 =
      (serTopChild cx prev trailing k a).2 ∧
    WRel keep (serTopChild cx prev trailing k a).1
      (serTopChild (noFormatters cx) (prev.map (mapCode (formattedCode cx))) trailing k' b).1 := by
  have hp : (prev.map (mapCode (formattedCode cx))).isSome = prev.isSome := Option.isSome_map
  have hf : ∀ p st, flushAll (noFormatters cx) p st = flushAll cx p st := fun _ _ => rfl
  have hx : ∀ l, extractSourceFromLine (noFormatters cx) l = extractSourceFromLine cx l := fun _ => rfl
  have rf := r.neutral (neutral_flushAll cx (some k.node.pos.startLine))
  simp only [serTopChild, h.node, hp, hf, hx, mapCode_html?, mapCode_isFootnoteDefinition, mapCode_directive,
    mapCode_pos, mapCode_headingLevel, blockGap_mapCode]
  split
  · exact ⟨rfl, r⟩
  · split
    · exact ⟨rfl, r⟩
    · cases hd : k.node.directive with
      | none =>
        refine ⟨rfl, ?_⟩
        simp only
        split
        · exact serTopBlock_rel h (rf.push _)
        · exact serTopBlock_rel h (r.push _)
      | some d =>
        cases d with
        | disableFile =>
          refine ⟨rfl, ?_⟩
          simp only
          cases extractSourceFromLine cx (k.node.pos.endLine + 1) with
          | none => exact rf.push _
          | some s => exact (rf.push _).push _
        | disableNextLine => exact ⟨rfl, rf.neutral (F := writeDirective _ _ _) fun _ _ => rfl⟩
        | disableNextSection => exact ⟨rfl, rf.neutral (F := writeDirective _ _ _) fun _ _ => rfl⟩
        | disable => exact ⟨rfl, rf.neutral (F := writeDirective _ _ _) fun _ _ => rfl⟩
        | enable => exact ⟨rfl, r.neutral (F := writeDirective _ _ _) fun _ _ => rfl⟩
        | properNouns ns =>
          exact ⟨rfl, (r.neutral (F := fun st => { st with
            directiveProperNouns := st.directiveProperNouns ++ ns }) fun _ _ => rfl).push _⟩
        | commonNouns ns =>
          exact ⟨rfl, (r.neutral (F := fun st => { st with
            directiveCommonNouns := st.directiveCommonNouns ++ ns }) fun _ _ => rfl).push _⟩

theorem serTopLoop_rel {ks ks' : List Kid} (h : KidsRel cx keep ks ks') :
    ∀ (prev : Option Node) (main : Nat) {a b : St}, WRel keep a b →
    (serTopLoop (noFormatters cx) (prev.map (mapCode (formattedCode cx))) main ks' b).2 =
      (serTopLoop cx prev main ks a).2 ∧
    WRel keep (serTopLoop cx prev main ks a).1
      (serTopLoop (noFormatters cx) (prev.map (mapCode (formattedCode cx))) main ks' b).1 := by
  induction h with
  | nil => exact fun _ _ _ _ r => ⟨rfl, r⟩
  | @cons k k' _ _ hk _ ih =>
    intro prev main a b r
    obtain ⟨h1, h2⟩ := serTopChild_rel prev (main == 0) hk r
    simp only [serTopLoop]
    rw [h1]
    split
    · exact ⟨h1, h2⟩
    · have := ih (some k.node) (main - 1) h2
      rw [Option.map_some, ← hk.node] at this
      exact this

theorem docEnd_rel {F : St → St} (hF : Neutral F) (A B : St × Bool) (h1 : B.2 = A.2) (h2 : WRel keep A.1 B.1) :
    WRel keep (if A.2 then A.1 else F A.1) (if B.2 then B.1 else F B.1) := by
  obtain ⟨A1, A2⟩ := A
  obtain ⟨B1, B2⟩ := B
  cases h1
  cases A2 with
  | true => exact h2
  | false => exact h2.neutral hF

theorem serDocument_rel {ks ks' : List Kid} (h : KidsRel cx keep ks ks') (r : WRel keep a b) :
    WRel keep (serDocument cx ks a) (serDocument (noFormatters cx) ks' b) := by
  have hf : ∀ p st, flushAll (noFormatters cx) p st = flushAll cx p st := fun _ _ => rfl
  simp only [serDocument, h.nodes, undefinedWarnings_mapCodes, footnoteRefLinesList_mapCodes,
    trailingStart_mapCodes, hf]
  have r2 := (r.addWarnings (undefinedWarnings cx (ks.map (·.node)))).neutral
    (neutral_recordLines (footnoteRefLinesList (ks.map (·.node))))
  have r3 := (h.filter (fun k => k.node.isFootnoteDefinition)
    (fun k k' hk => by rw [hk.node, mapCode_isFootnoteDefinition])).runKids r2
  obtain ⟨h1, h2⟩ := serTopLoop_rel h none (trailingStart (ks.map (·.node))) r3
  rw [Option.map_none] at h1 h2
  have := docEnd_rel (F := fun st => outputTrailing ((ks.map (·.node)).drop (trailingStart (ks.map (·.node))))
    (flushAll cx none st)) ((neutral_flushAll cx none).comp (neutral_outputTrailing _)) _ _ h1 h2
  have ht : ∀ i st, outputTrailing ((mapCodes (formattedCode cx) (ks.map (·.node))).drop i) st =
      outputTrailing ((ks.map (·.node)).drop i) st := by
    intro i st
    rw [mapCodes_map, ← List.map_drop (f := mapCode _), outputTrailing_map]
  simp only [ht]
  exact this

theorem dispatch_rel (v : NodeValue) (p : Pos) (nb : Bool) {ks ks' : List Kid} (h : KidsRel cx keep ks ks')
    (hc : keep → ∀ info code, v = .codeBlock info code → (codeContent cx info code).2 = none)
    (r : WRel keep a b) :
    WRel keep (dispatch cx v p ks nb a)
      (dispatch (noFormatters cx) (mapCodeValue (formattedCode cx) v) p ks' nb b) := by
  cases v <;> simp only [dispatch, mapCodeValue, h.nodes]
  case document => exact serDocument_rel h r
  case heading => exact serHeading_rel _ _ r
  case list => exact serList_rel _ _ h r
  case codeBlock info code => exact serCodeBlock_rel info code (fun k => hc k info code rfl) r
  case blockQuote => exact serBlockQuote_rel h r
  case table => exact serTable_rel _ _ _ r
  case tableRow => exact r
  case tableCell => exact h.runKids r
  case descriptionList => exact serDescriptionList_rel h r
  case descriptionItem => exact h.runKids r
  case descriptionTerm => exact h.runKids r
  case descriptionDetails => exact serDetails_rel h r
  case alert => exact serAlert_rel _ _ h r
  case item => exact serItem_rel _ h r
  case taskItem => exact serItem_rel _ h r
  case paragraph => exact serParagraph_rel _ _ r
  case thematicBreak => exact serThematicBreak_rel r
  case emph => exact (h.runKids (r.push _)).push _
  case strong => exact (h.runKids (r.push _)).push _
  case link => exact serLink_rel _ _ _ _ h r
  case image => exact serImage_rel _ _ _ _ r
  case footnoteReference name =>
    exact (r.neutral (F := recordReferenceLine name p.startLine) fun _ _ => rfl).push _
  case footnoteDefinition => exact serFootnoteDefinition_rel _ h r
  case other => exact h.runKids r
  all_goals exact r.push _

end

mutual
theorem ser_rel (cx : Cx) (keep : Prop) : ∀ (n : Node) (nb : Bool)
    (_ : keep → ∀ e ∈ codeBlocksOf n, (codeContent cx e.1 e.2).2 = none) {a b : St} (_ : WRel keep a b),
    WRel keep (ser cx n nb a) (ser (noFormatters cx) (mapCode (formattedCode cx) n) nb b)
  | .mk v p cs, nb, hc, a, b, r => by
    rw [mapCode, ser, ser]
    apply dispatch_rel v p nb (serKids_rel cx keep cs ?_) ?_ r
    · intro k e he
      apply hc k e
      cases v <;> simp only [codeBlocksOf]
      case codeBlock => exact List.mem_cons_of_mem _ he
      all_goals exact he
    · rintro k info code rfl
      exact hc k (info, code) (by simp [codeBlocksOf])

theorem serKids_rel (cx : Cx) (keep : Prop) : ∀ (ns : List Node)
    (_ : keep → ∀ e ∈ codeBlocksOfList ns, (codeContent cx e.1 e.2).2 = none),
    KidsRel cx keep (serKids cx ns) (serKids (noFormatters cx) (mapCodes (formattedCode cx) ns))
  | [], _ => .nil
  | n :: ns, hc => by
    rw [mapCodes, serKids, serKids, nextIsBracket_mapCodes]
    have h1 : keep → ∀ e ∈ codeBlocksOf n, (codeContent cx e.1 e.2).2 = none := fun k e he =>
      hc k e (by rw [codeBlocksOfList]; exact List.mem_append_left _ he)
    refine .cons ⟨rfl, fun r => ser_rel cx keep n _ h1 r, ?_⟩
      (serKids_rel cx keep ns fun k e he => hc k e (by rw [codeBlocksOfList]; exact List.mem_append_right _ he))
    intro k info code hv
    obtain ⟨v, p, cs⟩ := n
    cases hv
    exact h1 k (info, code) (by simp [codeBlocksOf])
end

theorem formatDoc_rel (cx : Cx) (root : Node) :
    WRel (∀ e ∈ codeBlocksOf root, (codeContent cx e.1 e.2).2 = none) (formatDoc cx root)
      (formatDoc (noFormatters cx) (mapCode (formattedCode cx) root)) :=
  ser_rel cx _ root false (fun k => k) (WRel.refl _ _)

theorem formattedCode_eq (cx : Cx) (hcb : cx.callback = none) :
    formattedCode cx = formattedBy cx.opts.codeFormatters cx.runFormatter cx.opts.defaultLanguage := by
  funext info code
  rw [formattedCode, codeContent_eq cx hcb, formattedBy]
  cases chosenFormatter cx.opts.codeFormatters cx.opts.defaultLanguage info with
  | none => rfl
  | some fm =>
    simp only
    cases cx.runFormatter fm code <;> rfl

theorem codeContent_silent (cx : Cx) (hcb : cx.callback = none) (info code : List Char)
    (h : ¬ FailsOn cx.opts.codeFormatters cx.runFormatter cx.opts.defaultLanguage info code) :
    (codeContent cx info code).2 = none := by
  rw [codeContent_eq cx hcb]
  cases hc : chosenFormatter cx.opts.codeFormatters cx.opts.defaultLanguage info with
  | none => rfl
  | some fm =>
    simp only
    cases hr : cx.runFormatter fm code with
    | ok s => rfl
    | error e => exact absurd ⟨fm, e, hc, hr⟩ h

theorem codeContent_callback (cx : Cx) {f : List Char → List Char → Option (List Char)} (hcb : cx.callback = some f)
    (info code : List Char) :
    codeContent cx info code = (formattedByFunction f cx.opts.defaultLanguage info code, none) := by
  rw [codeContent, codeLanguage_eq, noFormat_eq, formattedByFunction]
  generalize "hongdown-no-format".toList = k
  by_cases h1 : k ∈ splitWs info
  · simp [h1]
  · by_cases h2 : languageOf cx.opts.defaultLanguage info = []
    · simp [h2]
    · simp only [ne_eq, h1, h2, not_false_eq_true, decide_false, and_self, if_true, or_self, if_false,
        tryFormatCode, hcb]

theorem formatDoc_callback (cx : Cx) {f : List Char → List Char → Option (List Char)} (hcb : cx.callback = some f)
    (root : Node) :
    formatDoc cx root =
      formatDoc (noFormatters cx) (mapCode (formattedByFunction f cx.opts.defaultLanguage) root) := by
  obtain ⟨w, h1, -, h3⟩ := formatDoc_rel cx root
  have hf : formattedCode cx = formattedByFunction f cx.opts.defaultLanguage := by
    funext info code
    rw [formattedCode, codeContent_callback cx hcb]
  rw [← hf, h1, h3 fun e _ => by rw [codeContent_callback cx hcb]]

mutual
theorem mapCode_id (f : List Char → List Char → List Char) : ∀ n : Node,
    (∀ e ∈ codeBlocksOf n, f e.1 e.2 = e.2) → mapCode f n = n
  | .mk v p cs, h => by
    have h1 : ∀ e ∈ codeBlocksOfList cs, f e.1 e.2 = e.2 := by
      intro e he
      apply h e
      cases v <;> simp only [codeBlocksOf]
      case codeBlock => exact List.mem_cons_of_mem _ he
      all_goals exact he
    rw [mapCode, mapCodes_id f cs h1]
    congr 1
    cases v <;> try rfl
    case codeBlock info code =>
      rw [mapCodeValue]
      exact congrArg _ (h (info, code) (by simp [codeBlocksOf]))
theorem mapCodes_id (f : List Char → List Char → List Char) : ∀ ns : List Node,
    (∀ e ∈ codeBlocksOfList ns, f e.1 e.2 = e.2) → mapCodes f ns = ns
  | [], _ => rfl
  | n :: ns, h => by
    rw [mapCodes, mapCode_id f n fun e he => h e (by rw [codeBlocksOfList]; exact List.mem_append_left _ he),
      mapCodes_id f ns fun e he => h e (by rw [codeBlocksOfList]; exact List.mem_append_right _ he)]
end

end Hongdown.Model
