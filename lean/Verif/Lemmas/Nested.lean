import Verif.Spec.Nested
import Verif.Lemmas.WrapFirst
import Verif.Lemmas.Lists
import Verif.Lemmas.CurledCore

/-!
# What is written for nested lists
-/

namespace Hongdown.Model
open Spec

/-- The marker of an item. -/
def treeMarker (o : Options) (type : ListType) (depth k : Nat) : List Char :=
  match type with
  | .bullet => spaces o.leadingSpaces ++ [o.unorderedMarker] ++ spaces o.trailingSpaces
  | .ordered =>
    let num := (Nat.repr k).toList
    num ++ [if depth % 2 = 1 then o.oddLevelMarker else o.evenLevelMarker] ++ spaces (max (4 - (num.length + 1)) 1)

/-- The text of a block in items nested `d` deep. -/
def leafText (cx : Cx) : Nat → CoreBlock → List Char
  | 0, b => coreText cx b
  | d + 1, .paragraph ls => wrapTextFirstLine cx.width (joinWith ['\x00'] ls) [] (spaces (4 * (d + 1))) cx.opts.lineWidth
  | d + 1, .code info ls => codeBlockIndentedText cx false info (unlines ls) (spaces (4 * (d + 1)))
  | _, _ => []

/-- The text of a block of a block quote. -/
def quotedText (cx : Cx) : CoreBlock → List Char
  | .paragraph ls => wrapText cx.width (joinWith ['\x00'] ls) ['>', ' '] cx.opts.lineWidth ++ ['\n']
  | .code info ls => codeBlockText cx true info (unlines ls)
  | .heading level ls => headingText cx level (joinWith [' '] ls)
  | .rule => ['>', ' '] ++ spaces cx.opts.thematicBreakLeadingSpaces ++ cx.opts.thematicBreakStyle ++ ['\n']
  | .definition _ _ => []

/-- The text of a block quote. -/
def quoteText (cx : Cx) : List CoreBlock → List Char
  | [] => []
  | [b] => quotedText cx b
  | b :: bs => quotedText cx b ++ ['>', '\n'] ++ quoteText cx bs

/-- The lines of an alert before its blocks, without their markers. -/
def alertLines : Option AlertHead → List (List Char)
  | none => []
  | some a => (['[', '!'] ++ alertName a.kind ++ [']']) :: if a.blank then [[]] else []

/-- The text of an alert before its blocks. -/
def alertText : Option AlertHead → List Char
  | none => []
  | some a => ['>', ' ', '[', '!'] ++ alertName a.kind ++ [']', '\n'] ++ if a.blank then ['>', '\n'] else []

def TreeBlock.isQuote : TreeBlock → Bool
  | .quote _ _ _ => true
  | _ => false

def TreeBlock.isList : TreeBlock → Bool
  | .list _ _ _ _ => true
  | _ => false

def TreeBlock.isCode : TreeBlock → Bool
  | .leaf _ (.code _ _) => true
  | _ => false

/-- What is written between two blocks of an item. -/
def between (d : Nat) (prev : Option TreeBlock) : TreeBlock → List Char
  | .list g _ _ _ => if prev.isSome && g then ['\n', '\n'] else ['\n']
  | .leaf _ (.paragraph _) =>
    match prev with
    | none => []
    | some p => (if TreeBlock.isCode p || TreeBlock.isList p then ['\n'] else ['\n', '\n']) ++ spaces (4 * d)
  | .leaf _ (.code _ _) => ['\n', '\n'] ++ spaces (4 * d)
  | _ => []

mutual

def treeText (cx : Cx) (d : Nat) : TreeBlock → List Char
  | .leaf _ b => leafText cx d b
  | .quote _ a bs => alertText a ++ quoteText cx bs
  | .list _ start tight items => itemsText cx d (listType start) tight 1 items
  | .table _ aligns rows => tableText cx.width false aligns rows

def itemsText (cx : Cx) (d : Nat) (type : ListType) (tight : Bool) (k : Nat) : List (List TreeBlock) → List Char
  | [] => []
  | it :: its =>
    (if !tight && 1 < k then ['\n'] else []) ++ spaces (4 * d) ++ treeMarker cx.opts type (d + 1) k ++
      blocksText cx (d + 1) none it ++ (if it.getLast?.any (fun b => TreeBlock.isList b || TreeBlock.isCode b) then [] else ['\n']) ++
      itemsText cx d type tight (k + 1) its

def blocksText (cx : Cx) (d : Nat) (prev : Option TreeBlock) : List TreeBlock → List Char
  | [] => []
  | b :: bs => between d prev b ++ treeText cx d b ++ blocksText cx d (some b) bs

end

/-- Paragraphs, code blocks and lists. -/
def inItem : TreeBlock → Bool
  | .leaf _ (.paragraph _) => true
  | .leaf _ (.code _ _) => true
  | .list _ _ _ _ => true
  | _ => false

mutual

def shaped : TreeBlock → Bool
  | .leaf _ _ => true
  | .quote _ _ bs => !bs.isEmpty
  | .list _ _ _ items => shapedItems items
  | .table _ _ rows => !rows.isEmpty && rows.flatten.all fun c => '|' ∉ c

def shapedItems : List (List TreeBlock) → Bool
  | [] => true
  | it :: its => it.all inItem && shapedBlocks it && shapedItems its

def shapedBlocks : List TreeBlock → Bool
  | [] => true
  | b :: bs => shaped b && shapedBlocks bs

end

/-! ### Trees with their quotation marks replaced -/

/-- A tree with its quotation marks replaced. -/
noncomputable abbrev curlTree (cx : Cx) : TreeBlock → TreeBlock := mapTree (curlBlock cx)

theorem mapTrees_eq (f : CoreBlock → CoreBlock) : ∀ bs : List TreeBlock, mapTrees f bs = bs.map (mapTree f)
  | [] => by rw [mapTrees]; rfl
  | b :: bs => by rw [mapTrees, mapTrees_eq f bs]; rfl

theorem mapItems_eq (f : CoreBlock → CoreBlock) : ∀ items : List (List TreeBlock), mapItems f items = items.map (List.map (mapTree f))
  | [] => by rw [mapItems]; rfl
  | it :: its => by rw [mapItems, mapItems_eq f its, mapTrees_eq]; rfl

theorem curl_isDefinition (cx : Cx) (b : CoreBlock) : (curlBlock cx b).isDefinition = b.isDefinition := by cases b <;> rfl

theorem curlTree_isList (cx : Cx) (b : TreeBlock) : TreeBlock.isList (curlTree cx b) = TreeBlock.isList b := by
  cases b <;> rw [curlTree, mapTree] <;> rfl

theorem curlTree_isCode (cx : Cx) (b : TreeBlock) : TreeBlock.isCode (curlTree cx b) = TreeBlock.isCode b := by
  cases b with
  | leaf g b => rw [curlTree, mapTree]; cases b <;> rfl
  | _ => rw [curlTree, mapTree]; rfl

theorem curlTree_isDefinition (cx : Cx) (b : TreeBlock) : (curlTree cx b).isDefinition = b.isDefinition := by
  cases b with
  | leaf g b => rw [curlTree, mapTree]; cases b <;> rfl
  | _ => rw [curlTree, mapTree]; rfl

theorem between_curl (cx : Cx) (d : Nat) (prev : Option TreeBlock) (b : TreeBlock) : between d prev (curlTree cx b) = between d prev b := by
  cases b with
  | leaf g b => rw [curlTree, mapTree]; cases b <;> rfl
  | _ => rw [curlTree, mapTree]; rfl

theorem curlTree_last (cx : Cx) (it : List TreeBlock) : (it.map (curlTree cx)).getLast?.any (fun b => TreeBlock.isList b || TreeBlock.isCode b) =
    it.getLast?.any (fun b => TreeBlock.isList b || TreeBlock.isCode b) := by
  rw [List.getLast?_map]
  cases it.getLast? with
  | none => rfl
  | some b => simp [curlTree_isList, curlTree_isCode]

theorem curl_cell {cx : Cx} (ho : DashesOk cx.opts.punct) {c : List Char} (h0 : c ≠ []) (hv : CoreValid (.paragraph [c])) :
    curlLines cx [c] = [mapCell (curlBlock cx) c] ∧ Curly c (mapCell (curlBlock cx) c) := by
  obtain ⟨a, ha⟩ := hv.2.2
  have := curlLines_pairs (cx := cx) ho hv.1 hv.2.1 ha
  rw [mapCell, if_neg h0, curlBlock]
  cases hx : curlLines cx [c] with
  | nil => rw [hx] at this; exact absurd this id
  | cons x r =>
    rw [hx] at this
    cases r with
    | cons _ _ => exact absurd this.2 id
    | nil => exact ⟨rfl, this.1⟩

theorem curl_refs {cx : Cx} (ho : DashesOk cx.opts.punct) {links : LinkMap} {b : CoreBlock} (hv : CoreValid b) :
    leafRefs links (curlBlock cx b) = leafRefs links b := by
  have key : ∀ a : List Run, runRefs links (a.map (curlRun cx)) = runRefs links a := by
    intro a
    induction a with
    | nil => rfl
    | cons r a ih =>
      cases r with
      | link t => rw [List.map_cons, curlRun, runRefs, runRefs, ih]
      | _ =>
        rw [List.map_cons, curlRun, runRefs, runRefs, ih]
        all_goals exact nofun
  cases b with
  | heading level ls =>
    obtain ⟨a, ha⟩ := hv.2.2.2
    rw [curlBlock, leafRefs_heading ha, leafRefs_heading (curlLines_content ho ha), key]
  | paragraph ls =>
    obtain ⟨a, ha⟩ := hv.2.2
    rw [curlBlock, leafRefs_paragraph ha, leafRefs_paragraph (curlLines_content ho ha), key]
  | _ => rfl

/-- The state in items nested `d` deep. -/
structure InItems (d : Nat) (st : St) : Prop where
  depth : st.listDepth = d
  quote : st.inBlockQuote = false
  entry : st.blockquoteEntryListDepth = 0
  details : st.inDescriptionDetails = false
  first : st.descriptionDetailsFirstList = false
  type : 0 < d → st.listType.isSome = true
  collecting : st.footnotes.collecting = false

theorem InItems.push {d : Nat} {st : St} (h : InItems d st) (s : List Char) : InItems d (st.push s) :=
  ⟨h.depth, h.quote, h.entry, h.details, h.first, h.type, h.collecting⟩

theorem InItems.wrote {d : Nat} {st : St} (h : InItems d st) (s : List Char) (rs : List Ref) : InItems d (st.wrote s rs) :=
  ⟨h.depth, h.quote, h.entry, h.details, h.first, h.type, h.collecting⟩

theorem push_push (st : St) (a b : List Char) : (st.push a).push b = st.push (a ++ b) := by
  simp [St.push]

theorem push_nil (st : St) : st.push [] = st := by simp [St.push]

theorem spaces_add (a b : Nat) : spaces a ++ spaces b = spaces (a + b) := by
  simp [spaces, List.replicate_append_replicate]

theorem textLine_one {c : Char} (h : TextLine [c]) : letterLike c = true := by
  have hs : c ≠ ' ' := by
    rintro rfl
    exact absurd (textLine_head h ' ' (by rfl)) (by decide)
  have : splitOn ' ' [c] = [[c]] := by
    rw [splitOn_of_not_mem]
    simpa using fun h => hs h.symm
  obtain ⟨x, hx, hl⟩ := (h [c] (by rw [this]; simp)).2.1
  simp only [List.mem_singleton] at hx
  rwa [hx] at hl

theorem no_abbreviation_raw {cx : Cx} {src : List Char} (hr : '\r' ∉ src) {p : Pos} {l raw : List Char} {r : List (List Char)}
    (hv : CoreValid (.paragraph (l :: r)))
    (h : l.take 2 <+: raw) (hp : StandsAt src p raw) (hn : raw.getLast? ≠ some '\n') : abbreviationDef (withSource cx src) p = none := by
  have hl := hv.2.1 l (by simp)
  have h0 : raw ≠ [] := by
    rintro rfl
    exact textLine_ne_nil hl (List.take_eq_nil_iff.1 (List.prefix_nil.1 h) |>.resolve_left (by decide))
  have he := extract_standsAt (cx := cx) hr hp h0 hn
  unfold abbreviationDef
  simp only [he]
  rw [if_neg]
  intro hh
  rw [Bool.and_eq_true] at hh
  have hs := List.isPrefixOf_iff_prefix.1 hh.1
  obtain ⟨c, t, rfl⟩ := List.exists_cons_of_ne_nil (textLine_ne_nil hl)
  have hc : rawChar c = true := textLine_head hl c (by simp)
  rw [List.take_succ_cons] at h
  obtain ⟨x, rfl⟩ := h
  have ht : trim (c :: t.take 1 ++ x) <+: c :: t.take 1 ++ x := by
    have : trimStart (c :: t.take 1 ++ x) = c :: t.take 1 ++ x := by
      rw [List.cons_append, trimStart, List.dropWhile_cons_of_neg (by rw [rawChar_not_ws hc]; simp)]
    rw [trim, this]
    exact trimEnd_prefix _
  obtain ⟨u, hu⟩ := hs.trans ht
  simp only [List.cons_append, List.cons.injEq, List.nil_append] at hu
  obtain ⟨rfl, hu⟩ := hu
  cases t with
  | nil => exact absurd (textLine_one hl) (by decide)
  | cons d t =>
    simp only [List.take_succ_cons, List.cons_append, List.cons.injEq] at hu
    obtain ⟨rfl, _⟩ := hu
    obtain ⟨a, ha, hok⟩ := hv.2.2
    refine runs_no_definition hok ?_
    rw [ha]
    cases r with
    | nil => exact ⟨t, rfl⟩
    | cons _ _ => rw [joinWith_cons _ _ (by simp)]; exact ⟨_, rfl⟩

/-- The previous block of an item and its node. -/
def PrevIs : Option TreeBlock → Option Node → Prop
  | none, none => True
  | some b, some n => n.isCodeBlock = TreeBlock.isCode b ∧ n.isList = TreeBlock.isList b
  | _, _ => False

theorem quoteNode_value {p : Pos} {ns : List Node} {alert : Option AlertHead} {n : Node} (h : QuoteNode p ns alert n) :
    ∃ v, n = .mk v p ns ∧ ((alert = none ∧ v = .blockQuote) ∨ ∃ a, alert = some a ∧ v = .alert a.kind none) := by
  cases alert with
  | none => exact ⟨_, h, .inl ⟨rfl, rfl⟩⟩
  | some a => exact ⟨_, h.1, .inr ⟨a, rfl, rfl⟩⟩

theorem treeNode_kind {src : List Char} {links : LinkMap} {b : TreeBlock} {n : Node} (h : TreeNode src links b n) :
    n.isCodeBlock = TreeBlock.isCode b ∧ n.isList = TreeBlock.isList b ∧ n.isQuote = TreeBlock.isQuote b := by
  cases b with
  | quote g a bs =>
    rw [TreeNode] at h
    obtain ⟨p, ns, hq, _⟩ := h
    obtain ⟨v, rfl, hv⟩ := quoteNode_value hq
    rcases hv with ⟨rfl, rfl⟩ | ⟨a, rfl, rfl⟩ <;> exact ⟨rfl, rfl, rfl⟩
  | leaf g b =>
    rw [TreeNode] at h
    cases b with
    | heading level ls => obtain ⟨p, cs, rfl, _⟩ := h; exact ⟨rfl, rfl, rfl⟩
    | paragraph ls => obtain ⟨p, cs, raw, rfl, _⟩ := h; exact ⟨rfl, rfl, rfl⟩
    | code info ls => obtain ⟨p, rfl⟩ := h; exact ⟨rfl, rfl, rfl⟩
    | rule => obtain ⟨p, rfl⟩ := h; exact ⟨rfl, rfl, rfl⟩
    | definition _ _ => exact absurd h id
  | list g s t items =>
    rw [TreeNode] at h
    obtain ⟨p, ns, rfl, _⟩ := h
    exact ⟨rfl, rfl, rfl⟩
  | table g aligns rows =>
    rw [TreeNode] at h
    obtain ⟨p, ns, rfl, _⟩ := h
    exact ⟨rfl, rfl, rfl⟩

theorem isQuote_inItem {b : TreeBlock} (h : inItem b = true) : TreeBlock.isQuote b = false := by
  cases b with
  | quote _ _ _ => simp [inItem] at h
  | leaf _ _ => rfl
  | list _ _ _ _ => rfl
  | table _ _ _ => rfl

theorem childNodes_last {src : List Char} {links : LinkMap} : ∀ (bs : List TreeBlock) (prev : Option Node) (ns : List Node),
    bs.all inItem = true →
    ChildNodes src links prev bs ns → ns.getLast?.any endsLine = bs.getLast?.any (fun b => TreeBlock.isList b || TreeBlock.isCode b)
  | [], _, ns, _, h => by rw [ChildNodes] at h; subst h; rfl
  | [b], _, ns, hb, h => by
    rw [ChildNodes] at h
    obtain ⟨n, rest, rfl, hn, _, hr⟩ := h
    rw [ChildNodes] at hr
    subst hr
    obtain ⟨h1, h2, h3⟩ := treeNode_kind hn
    rw [isQuote_inItem (by simpa using hb)] at h3
    simp [endsLine, h1, h2, h3]
  | b :: c :: bs, _, ns, hb, h => by
    rw [ChildNodes] at h
    obtain ⟨n, rest, rfl, hn, _, hr⟩ := h
    have hh := hr
    rw [ChildNodes] at hh
    obtain ⟨m, rest', rfl, _⟩ := hh
    rw [List.all_cons, Bool.and_eq_true] at hb
    have := childNodes_last (c :: bs) (some n) (m :: rest') hb.2 hr
    rw [List.getLast?_cons_cons, List.getLast?_cons_cons]
    exact this

theorem trim_joinMarks {ls : List (List Char)} (h0 : ls ≠ []) (h : ∀ l ∈ ls, TextLine l) :
    trim (joinWith ['\x00'] ls) = joinWith ['\x00'] ls := by
  apply trim_of_ends
  · obtain ⟨l, r, rfl⟩ := List.exists_cons_of_ne_nil h0
    have hl := h l (by simp)
    obtain ⟨c, t, e⟩ := List.exists_cons_of_ne_nil (textLine_ne_nil hl)
    have : (joinWith ['\x00'] (l :: r)).head? = some c := by
      cases r with
      | nil => rw [joinWith, e]; rfl
      | cons _ _ => rw [joinWith_cons _ _ (by simp), e]; rfl
    rw [this]
    intro x hx
    cases hx
    exact rawChar_not_ws (textLine_head hl c (by rw [e]; rfl))
  · obtain ⟨i, l, rfl⟩ := (List.eq_nil_or_concat ls).resolve_left h0
    have hl := h l (by simp)
    intro x hx
    obtain ⟨c, hc⟩ : ∃ c, l.getLast? = some c := by
      cases hg : l.getLast? with
      | none => exact absurd (List.getLast?_eq_none_iff.1 hg) (textLine_ne_nil hl)
      | some c => exact ⟨c, rfl⟩
    have := joinWith_end ['\x00'] (c := c) (i ++ [l]) (by simp) (by simpa using hc)
    rw [List.concat_eq_append, this] at hx
    rw [Option.mem_some] at hx
    rw [← hx]
    exact rawChar_not_ws (textLine_last hl c hc)

theorem ser_item_paragraph {cx : Cx} {src : List Char} {links : LinkMap} (hr : '\r' ∉ src) (ho : NestedOptions cx.opts) {d : Nat}
    {ls : List (List Char)} (hv : CoreValid (.paragraph ls)) (hq : LinkMarksKept cx ls) {n : Node} (hn : LeafNode src links (.paragraph ls) n) (nb : Bool)
    {st : St} (h : InItems (d + 1) st) :
    ser (withSource cx src) n nb st = st.wrote (leafText cx (d + 1) (.paragraph (curlLines cx ls))) (leafRefs links (.paragraph ls)) := by
  obtain ⟨p, cs, raw, rfl, hc, hp, hpre, hlast⟩ := hn
  obtain ⟨l, r, rfl⟩ := List.exists_cons_of_ne_nil hv.1
  have ha := no_abbreviation_raw (cx := cx) hr hv hpre hp hlast
  obtain ⟨a, hread⟩ := hv.2.2
  have hi := (collects_lines (cx := cx) hr ho.dashes hread hq hc).1
  rw [ser, dispatch, serKids_nodes, serParagraph, ha]
  simp only [hi]
  rw [leafRefs_paragraph hread, addReferences_plain _ _ h.collecting, if_pos ((h.wrote _ _).type (by omega)), wrote_push]
  have hcont : paragraphContinuation (withSource cx src) (st.wrote [] (runRefs links a)) = spaces (4 * (d + 1)) := by
    have h := h.wrote [] (runRefs links a)
    unfold paragraphContinuation
    simp [h.details, h.quote, h.depth, h.entry]
  have htext := curlLines_text (cx := cx) ho.dashes hv.1 hv.2.1 hread
  have htrim := trim_joinMarks htext.1 htext.2
  rw [hcont, htrim]
  rfl

theorem itemMarker_tree {cx : Cx} {src : List Char} (ho : NestedOptions cx.opts) {d : Nat} {st : St} (h : InItems d st) {type : ListType}
    (ht : st.listType = some type) : itemMarker (withSource cx src) st = treeMarker cx.opts type d st.listItemIndex := by
  unfold itemMarker treeMarker
  rw [ht]
  have e : (withSource cx src).opts = cx.opts := rfl
  cases type with
  | bullet => simp [h.details, e]
  | ordered => simp [h.depth, e, ho.orderedIndent]

theorem itemLead_tree {cx : Cx} {src : List Char} (ho : NestedOptions cx.opts) {d : Nat} {st : St} (h : InItems (d + 1) st) {type : ListType}
    (ht : st.listType = some type) : itemLead (withSource cx src) none st =
      (if !st.listTight && 1 < st.listItemIndex then ['\n'] else []) ++ spaces (4 * d) ++
        treeMarker cx.opts type (d + 1) st.listItemIndex := by
  unfold itemLead
  rw [itemMarker_tree ho h ht]
  have e : listIndentWidth (withSource cx src) st = 4 := by
    unfold listIndentWidth
    rw [show (withSource cx src).opts = cx.opts from rfl, ho.indent, ho.orderedIndent]; simp
  simp only [h.quote, h.details, h.first, h.depth, e, taskBox]
  cases d with
  | zero => simp [spaces]
  | succ d => simp

theorem itemIndent_tree {cx : Cx} {src : List Char} (ho : NestedOptions cx.opts) {d : Nat} {st : St} (h : InItems (d + 1) st) {type : ListType}
    (ht : st.listType = some type) : itemIndent (withSource cx src) st = spaces (4 * (d + 1)) := by
  have e : listIndentWidth (withSource cx src) st = 4 := by
    unfold listIndentWidth
    rw [show (withSource cx src).opts = cx.opts from rfl, ho.indent, ho.orderedIndent]; simp
  have em : markerWidth (withSource cx src) st.listType = 4 := by
    rw [ht]
    cases type with
    | bullet => exact ho.bullet
    | ordered => exact ho.orderedIndent
  unfold itemIndent
  simp only [h.details, e, em, h.depth]
  cases d with
  | zero => rfl
  | succ d => simp [spaces_add]; congr 1

theorem serItemChild_list (cx : Cx) (indent : List Char) (prev : Option Node) (type : ListType) (tight : Bool) (p : Pos) (ns : List Node)
    (act : St → St) (st : St) : serItemChild cx indent prev ⟨.mk (.list type tight) p ns, act⟩ st =
      act (st.push (if prev.any fun q => decide (q.pos.endLine + 1 < p.startLine) then ['\n', '\n'] else ['\n'])) := rfl

theorem serItemChild_paragraph (cx : Cx) (indent : List Char) (prev : Option Node) (p : Pos) (ns : List Node)
    (act : St → St) (st : St) : serItemChild cx indent prev ⟨.mk .paragraph p ns, act⟩ st =
      act (match prev with
        | none => st
        | some q => st.push ((if q.isCodeBlock || q.isList then ['\n'] else ['\n', '\n']) ++
            (if st.inBlockQuote then ['>', ' '] else []) ++ indent)) := by
  cases prev <;> rfl

theorem serItemChild_code (cx : Cx) (indent : List Char) (prev : Option Node) (info literal : List Char) (p : Pos) (ns : List Node)
    (act : St → St) (st : St) : serItemChild cx indent prev ⟨.mk (.codeBlock info literal) p ns, act⟩ st =
      serCodeBlockIndented cx info literal indent (st.push (['\n', '\n'] ++ (if st.inBlockQuote then ['>', ' '] else []) ++ indent)) := rfl

theorem kids_last (cx : Cx) (f : Node → Bool) : ∀ ns : List Node,
    (serKids cx ns).getLast?.any (fun k : Kid => f k.node) = ns.getLast?.any f
  | [] => rfl
  | [n] => rfl
  | n :: m :: ns => by
    have := kids_last cx f (m :: ns)
    rw [serKids] at this ⊢
    rw [serKids, List.getLast?_cons_cons, List.getLast?_cons_cons]
    exact this

theorem serItem_tree {cx : Cx} {src : List Char} (ho : NestedOptions cx.opts) {d : Nat} {st : St} (hst : InItems (d + 1) st) {type : ListType}
    (ht : st.listType = some type) (kids : List Kid) {T : List Char} {rs : List Ref}
    (hk : ∀ st', InItems (d + 1) st' → serItemChildren (withSource cx src) (spaces (4 * (d + 1))) none kids st' = st'.wrote T rs) :
    serItem (withSource cx src) none kids st = { st with listItemIndex := st.listItemIndex + 1 }.wrote
      ((if !st.listTight && decide (1 < st.listItemIndex + 1) then ['\n'] else []) ++ spaces (4 * d) ++
        treeMarker cx.opts type (d + 1) (st.listItemIndex + 1) ++ T ++
        (if kids.getLast?.any (fun k : Kid => endsLine k.node) then [] else ['\n'])) rs := by
  have hst1 : InItems (d + 1) { st with listItemIndex := st.listItemIndex + 1 } :=
    ⟨hst.depth, hst.quote, hst.entry, hst.details, hst.first, hst.type, hst.collecting⟩
  unfold serItem
  simp only [itemLead_tree (src := src) ho hst1 ht]
  have hst2 := hst1.push ((if !st.listTight && decide (1 < st.listItemIndex + 1) then ['\n'] else []) ++ spaces (4 * d) ++
        treeMarker cx.opts type (d + 1) (st.listItemIndex + 1))
  simp only [itemIndent_tree (src := src) ho hst2 ht]
  rw [hk]
  · split <;> simp [St.push, St.wrote]
  · exact ⟨hst2.depth, hst2.quote, hst2.entry, hst2.details, hst2.first, hst2.type, hst2.collecting⟩

mutual

theorem ser_tree {cx : Cx} {src : List Char} {links : LinkMap} (hr : '\r' ∉ src) (ho : NestedOptions cx.opts) (hcb : cx.callback = none) :
    ∀ (b : TreeBlock) (d : Nat) (n : Node) (nb : Bool) (st : St), (∀ l ∈ leaves b, CoreValid l ∧ BlockLinks cx l) → shaped b = true →
      TreeBlock.isList b = true → TreeNode src links b n → InItems d st →
      ser (withSource cx src) n nb st = st.wrote (treeText cx d (curlTree cx b)) ((leaves b).flatMap (leafRefs links))
  | .leaf _ _, _, _, _, _, _, _, hl, _, _ => by simp [TreeBlock.isList] at hl
  | .quote _ _ _, _, _, _, _, _, _, hl, _, _ => by simp [TreeBlock.isList] at hl
  | .table _ _ _, _, _, _, _, _, _, hl, _, _ => by simp [TreeBlock.isList] at hl
  | .list g start tight items, d, n, nb, st, hv, hs, _, hn, hst => by
    rw [TreeNode] at hn
    obtain ⟨p, ns, rfl, hi⟩ := hn
    rw [shaped] at hs
    rw [leaves] at hv
    rw [ser, dispatch, serList]
    have := ser_items hr ho hcb items d (listType start) tight ns { st with
        listType := some (listType start)
        listTight := tight
        listItemIndex := 0
        listDepth := st.listDepth + 1
        orderedListMaxItems := if listType start = .ordered then ((serKids (withSource cx src) ns).filter fun k => k.node.isItem).length
          else st.orderedListMaxItems } hv hs hi ⟨by simp [hst.depth], hst.quote, hst.entry, hst.details, hst.first, fun _ => rfl, hst.collecting⟩ rfl rfl
    simp only [this, curlTree, mapTree, mapItems_eq, treeText, leaves]
    simp [St.wrote, hst.depth]

theorem ser_items {cx : Cx} {src : List Char} {links : LinkMap} (hr : '\r' ∉ src) (ho : NestedOptions cx.opts) (hcb : cx.callback = none) :
    ∀ (items : List (List TreeBlock)) (d : Nat) (type : ListType) (tight : Bool) (ns : List Node) (st : St),
      (∀ l ∈ itemsLeaves items, CoreValid l ∧ BlockLinks cx l) → shapedItems items = true → ItemNodes src links items ns → InItems (d + 1) st →
      st.listType = some type → st.listTight = tight →
      runKids (serKids (withSource cx src) ns) st =
        { st with listItemIndex := st.listItemIndex + items.length }.wrote (itemsText cx d type tight (st.listItemIndex + 1) (items.map (List.map (curlTree cx))))
          ((itemsLeaves items).flatMap (leafRefs links))
  | [], d, type, tight, ns, st, _, _, hn, _, _, _ => by
    rw [ItemNodes] at hn
    subst hn
    simp [serKids, runKids, itemsText, itemsLeaves, St.wrote, addRefs]
  | it :: its, d, type, tight, ns, st, hv, hs, hn, hst, ht, htt => by
    rw [ItemNodes] at hn
    obtain ⟨p, cs, rest, rfl, hc, hrest⟩ := hn
    rw [shapedItems, Bool.and_eq_true, Bool.and_eq_true] at hs
    rw [itemsLeaves] at hv
    have hst1 : InItems (d + 1) { st with listItemIndex := st.listItemIndex + 1 } :=
      ⟨hst.depth, hst.quote, hst.entry, hst.details, hst.first, hst.type, hst.collecting⟩
    have hitem : ∀ nb, ser (withSource cx src) (.mk .item p cs) nb st =
        { st with listItemIndex := st.listItemIndex + 1 }.wrote
          ((if !tight && 1 < st.listItemIndex + 1 then ['\n'] else []) ++ spaces (4 * d) ++
            treeMarker cx.opts type (d + 1) (st.listItemIndex + 1) ++ blocksText cx (d + 1) none (it.map (curlTree cx)) ++
            (if it.getLast?.any (fun b => TreeBlock.isList b || TreeBlock.isCode b) then [] else ['\n']))
          ((blocksLeaves it).flatMap (leafRefs links)) := by
      intro nb
      have hl := childNodes_last it none cs hs.1.1 hc
      rw [ser, dispatch, serItem_tree ho hst ht _ fun st' h => ser_blocks hr ho hcb it d none none cs st' (fun l hl => hv l (by simp [hl]))
        hs.1.1 hs.1.2 hc trivial h, kids_last, hl, htt]
    rw [serKids, runKids, List.foldl_cons]
    show runKids _ (ser (withSource cx src) (.mk .item p cs) (nextIsBracket rest) st) = _
    rw [hitem, ser_items hr ho hcb its d type tight rest _ (fun l hl => hv l (by simp [hl])) hs.2 hrest (hst1.wrote _ _) ht htt]
    rw [List.map_cons, itemsText, curlTree_last]
    simp [St.wrote, itemsLeaves, addRefs_append]
    omega

theorem ser_blocks {cx : Cx} {src : List Char} {links : LinkMap} (hr : '\r' ∉ src) (ho : NestedOptions cx.opts) (hcb : cx.callback = none) :
    ∀ (bs : List TreeBlock) (d : Nat) (prev : Option TreeBlock) (pn : Option Node) (ns : List Node) (st : St),
      (∀ l ∈ blocksLeaves bs, CoreValid l ∧ BlockLinks cx l) → bs.all inItem = true → shapedBlocks bs = true → ChildNodes src links pn bs ns →
      PrevIs prev pn → InItems (d + 1) st →
      serItemChildren (withSource cx src) (spaces (4 * (d + 1))) pn (serKids (withSource cx src) ns) st =
        st.wrote (blocksText cx (d + 1) prev (bs.map (curlTree cx))) ((blocksLeaves bs).flatMap (leafRefs links))
  | [], d, prev, pn, ns, st, _, _, _, hn, _, _ => by
    rw [ChildNodes] at hn
    subst hn
    simp [serKids, serItemChildren, blocksText, blocksLeaves, St.wrote, addRefs]
  | b :: bs, d, prev, pn, ns, st, hv, hin, hs, hn, hp, hst => by
    rw [ChildNodes] at hn
    obtain ⟨n, rest, rfl, hb, hgap, hrest⟩ := hn
    rw [blocksLeaves] at hv
    rw [List.all_cons, Bool.and_eq_true] at hin
    rw [shapedBlocks, Bool.and_eq_true] at hs
    have hchild : ∀ nb, serItemChild (withSource cx src) (spaces (4 * (d + 1))) pn ⟨n, ser (withSource cx src) n nb⟩ st =
        st.wrote (between (d + 1) prev (curlTree cx b) ++ treeText cx (d + 1) (curlTree cx b)) ((leaves b).flatMap (leafRefs links)) := by
      intro nb
      rw [between_curl]
      cases b with
      | quote g a bs => simp [inItem] at hin
      | table g aligns rows => simp [inItem] at hin
      | list g start tight items =>
        have hser := ser_tree (links := links) hr ho hcb (.list g start tight items) (d + 1) n nb
        have hb' := hb
        rw [TreeNode] at hb'
        obtain ⟨p, ns', rfl, _⟩ := hb'
        rw [serItemChild_list, hser _ (fun l hl => hv l (by simp [hl])) hs.1 rfl hb (hst.push _), push_wrote]
        congr 2
        cases pn with
        | none =>
          cases prev with
          | none => rfl
          | some _ => exact absurd hp (by simp [PrevIs])
        | some m =>
          cases prev with
          | none => exact absurd hp (by simp [PrevIs])
          | some q =>
            have : g = true ↔ m.pos.endLine + 1 < p.startLine := hgap m _ _ _ _ rfl rfl
            by_cases hg : g = true
            · have h2 := this.1 hg
              simp [between, hg, h2]
            · have h2 := mt this.2 hg
              simp [between, hg, h2]
      | leaf g b =>
        rw [TreeNode] at hb
        cases b with
        | heading _ _ => simp [inItem] at hin
        | rule => simp [inItem] at hin
        | definition _ _ => simp [inItem] at hin
        | paragraph ls =>
          have hser := fun st h => ser_item_paragraph hr ho (d := d) (hv (.paragraph ls) (by simp [leaves])).1 (hv (.paragraph ls) (by simp [leaves])).2 hb nb (st := st) h
          obtain ⟨p, cs, raw, rfl, _⟩ := hb
          rw [serItemChild_paragraph]
          cases pn with
          | none =>
            cases prev with
            | none => rw [hser st hst]; simp [between, curlTree, mapTree, curlBlock, treeText, leaves]
            | some _ => exact absurd hp (by simp [PrevIs])
          | some m =>
            cases prev with
            | none => exact absurd hp (by simp [PrevIs])
            | some q =>
              rw [hser _ (hst.push _), push_wrote, hp.1, hp.2]
              simp [between, curlTree, mapTree, curlBlock, treeText, hst.quote, leaves]
        | code info ls =>
          obtain ⟨p, rfl⟩ := hb
          rw [serItemChild_code, serCodeBlockIndented, codeContent_nil (cx := withSource cx src) ⟨ho.formatters, hcb⟩]
          simp only [addCodeWarning]
          rw [push_push]
          have : (st.push (['\n', '\n'] ++ (if st.inBlockQuote = true then ['>', ' '] else []) ++ spaces (4 * (d + 1)))).inBlockQuote = false := hst.quote
          rw [this, hst.quote]
          simp only [leaves, leafRefs, St.wrote, addRefs, List.flatMap_cons, List.flatMap_nil, List.append_nil, List.foldl_nil]
          rfl
    rw [serKids, serItemChildren, hchild, ser_blocks hr ho hcb bs d (some (curlTree cx b)) (some n) rest _ (fun l hl => hv l (by simp [hl])) hin.2 hs.2 hrest
      ⟨by rw [curlTree_isCode]; exact (treeNode_kind hb).1, by rw [curlTree_isList]; exact (treeNode_kind hb).2.1⟩ (hst.wrote _ _), wrote_wrote,
      List.map_cons, blocksText, blocksLeaves, List.flatMap_append]

end

/-! ### Documents -/

/-- The state in a block quote at the top level. -/
structure InQuote (st : St) : Prop where
  quote : st.inBlockQuote = true
  marker : st.blockquotePrefix = ['>', ' ']
  outer : st.blockquoteOuterIndent = []
  type : st.listType = none
  collecting : st.footnotes.collecting = false

theorem InQuote.push {st : St} (h : InQuote st) (s : List Char) : InQuote (st.push s) := ⟨h.quote, h.marker, h.outer, h.type, h.collecting⟩

theorem InQuote.wrote {st : St} (h : InQuote st) (s : List Char) (rs : List Ref) : InQuote (st.wrote s rs) :=
  ⟨h.quote, h.marker, h.outer, h.type, h.collecting⟩

theorem ser_quoted {cx : Cx} {src : List Char} {links : LinkMap} (hr : '\r' ∉ src) (ho : NestedOptions cx.opts) (hcb : cx.callback = none)
    {b : CoreBlock} (hv : CoreValid b) (hq : BlockLinks cx b) {n : Node} (hn : LeafNode src links b n) (nb : Bool) {st : St}
    (h : InQuote st) : ser (withSource cx src) n nb st = st.wrote (quotedText cx (curlBlock cx b)) (leafRefs links b) := by
  cases b with
  | heading level ls =>
    obtain ⟨p, cs, rfl, hc⟩ := hn
    obtain ⟨a, ha⟩ := hv.2.2.2
    have := (collects_lines (cx := cx) hr ho.dashes ha hq hc).2
    rw [ser, dispatch, serKids_nodes, serHeading, this, if_neg (by rw [show (withSource cx src).opts = cx.opts from rfl, ho.sentenceCase]; simp),
      leafRefs_heading ha, addReferences_plain _ _ h.collecting, wrote_push]
    rfl
  | rule =>
    obtain ⟨p, rfl⟩ := hn
    rw [ser, dispatch, serThematicBreak, h.quote, h.outer]
    simp only [leafRefs, St.wrote, addRefs, List.foldl_nil]
    rfl
  | definition _ _ => exact absurd hn id
  | paragraph ls =>
    obtain ⟨p, cs, raw, rfl, hc, hp, hpre, hlast⟩ := hn
    obtain ⟨l, r, rfl⟩ := List.exists_cons_of_ne_nil hv.1
    have ha := no_abbreviation_raw (cx := cx) hr hv hpre hp hlast
    obtain ⟨a, hread⟩ := hv.2.2
    have hi := (collects_lines (cx := cx) hr ho.dashes hread hq hc).1
    rw [ser, dispatch, serKids_nodes, serParagraph, ha]
    simp only [hi]
    rw [leafRefs_paragraph hread, addReferences_plain _ _ h.collecting, if_neg (by simp [St.wrote, h.type]), wrote_push]
    have : quotePrefix (st.wrote [] (runRefs links a)) = ['>', ' '] := by
      rw [quotePrefix, if_pos (by exact h.quote)]
      show st.blockquoteOuterIndent ++ st.blockquotePrefix = _
      rw [h.outer, h.marker]; rfl
    rw [this]
    rfl
  | code info ls =>
    obtain ⟨p, rfl⟩ := hn
    rw [ser, dispatch, serCodeBlock, codeContent_nil (cx := withSource cx src) ⟨ho.formatters, hcb⟩]
    simp only [addCodeWarning]
    rw [h.quote]
    simp only [leafRefs, St.wrote, addRefs, List.foldl_nil]
    rfl

theorem ser_quoteKids {cx : Cx} {src : List Char} {links : LinkMap} (hr : '\r' ∉ src) (ho : NestedOptions cx.opts) (hcb : cx.callback = none) :
    ∀ (bs : List CoreBlock) (ns : List Node) (st : St), (∀ b ∈ bs, CoreValid b ∧ BlockLinks cx b) →
      LeafNodes src links bs ns → InQuote st →
      serQuoteChildren ['>', '\n'] (serKids (withSource cx src) ns) st = st.wrote (quoteText cx (bs.map (curlBlock cx))) (bs.flatMap (leafRefs links))
  | [], ns, st, _, hn, _ => by
    rw [LeafNodes] at hn; subst hn
    simp [serKids, serQuoteChildren, quoteText, St.wrote, addRefs]
  | [b], ns, st, hv, hn, h => by
    obtain ⟨n, rest, rfl, hb, hrest⟩ := hn
    rw [LeafNodes] at hrest; subst hrest
    rw [serKids, serKids, serQuoteChildren, List.map_singleton, quoteText, List.flatMap_singleton]
    exact ser_quoted hr ho hcb (hv b (by simp)).1 (hv b (by simp)).2 hb _ h
  | b :: c :: bs, ns, st, hv, hn, h => by
    obtain ⟨n, rest, rfl, hb, hrest⟩ := hn
    have ih := fun st' h' => ser_quoteKids hr ho hcb (c :: bs) rest st' (fun x hx => hv x (by simp only [List.mem_cons] at hx ⊢; exact .inr hx))
      hrest h'
    obtain ⟨m, rest', rfl, _⟩ := hrest
    have e := ser_quoted hr ho hcb (hv b (by simp)).1 (hv b (by simp)).2 hb (nextIsBracket (m :: rest')) h
    rw [serKids, serKids, serQuoteChildren, ← serKids]
    · show serQuoteChildren ['>', '\n'] _ ((ser (withSource cx src) n (nextIsBracket (m :: rest')) st).push ['>', '\n']) = _
      rw [e, ih _ ((h.wrote _ _).push _), wrote_push, wrote_wrote,
        show quoteText cx ((b :: c :: bs).map (curlBlock cx)) = quotedText cx (curlBlock cx b) ++ ['>', '\n'] ++ quoteText cx ((c :: bs).map (curlBlock cx)) from rfl,
        List.flatMap_cons (x := b)]
    · simp

theorem escapeTableCell_plain : ∀ {c : List Char}, '|' ∉ c → escapeTableCell c = c
  | [], _ => rfl
  | [c], h => by
    rw [escapeTableCell, if_neg]
    rintro rfl
    simp at h
  | c :: d :: rest, h => by
    have hc : c ≠ '|' := by rintro rfl; simp at h
    have h1 : '|' ∉ d :: rest := fun e => h (List.mem_cons_of_mem _ e)
    have h2 : '|' ∉ rest := fun e => h1 (List.mem_cons_of_mem _ e)
    rw [escapeTableCell, if_neg hc, escapeTableCell_plain h1, escapeTableCell_plain h2]
    split <;> rfl

theorem cellBlocks_cons (r : List (List Char)) (rs : List (List (List Char))) : cellBlocks (r :: rs) = cellBlocks [r] ++ cellBlocks rs := by
  simp [cellBlocks]

theorem cellBlocks_cell (c : List Char) (cs : List (List Char)) :
    cellBlocks [c :: cs] = (if c = [] then [] else [.paragraph [c]]) ++ cellBlocks [cs] := by
  by_cases h : c = [] <;> simp [cellBlocks, h]

theorem cells_inline {cx : Cx} {src : List Char} {links : LinkMap} (hr : '\r' ∉ src) (ho : NestedOptions cx.opts) :
    ∀ (cs : List (List Char)) (ns : List Node), (∀ b ∈ cellBlocks [cs], CoreValid b ∧ BlockLinks cx b) → (∀ c ∈ cs, '|' ∉ c) → CellNodes src links cs ns →
      (ns.map (cellInline (withSource cx src))).map (·.1) = cs.map (mapCell (curlBlock cx)) ∧
      (ns.map (cellInline (withSource cx src))).flatMap (·.2) = (cellBlocks [cs]).flatMap (leafRefs links)
  | [], ns, _, _, hn => by rw [CellNodes] at hn; subst hn; simp [cellBlocks]
  | c :: cs, ns, hv, hp, hn => by
    obtain ⟨p, ks, rest, rfl, hk, hrest⟩ := hn
    rw [cellBlocks_cell] at hv ⊢
    obtain ⟨h1, h2⟩ := cells_inline hr ho cs rest (fun b hb => hv b (by simp [hb])) (fun x hx => hp x (by simp [hx])) hrest
    have hcell : cellInline (withSource cx src) (.mk .tableCell p ks) =
        (mapCell (curlBlock cx) c, ((if c = [] then [] else [.paragraph [c]] : List CoreBlock)).flatMap (leafRefs links)) := by
      by_cases h0 : c = []
      · rw [if_pos h0] at hk
        subst hk h0
        rfl
      · rw [if_neg h0] at hk
        obtain ⟨hv, hq⟩ := hv (.paragraph [c]) (by simp [h0])
        obtain ⟨a, hread⟩ := hv.2.2
        have hi := (collects_lines (cx := cx) hr ho.dashes hread hq hk).1
        have hcell := curl_cell (cx := cx) ho.dashes h0 hv
        have hpipe : '|' ∉ mapCell (curlBlock cx) c := fun hm => by
          have := (curly_infix (x := ['|']) (by decide) hcell.2).2 (by obtain ⟨s, t, e⟩ := List.append_of_mem hm; exact ⟨s, t, by simp [e]⟩)
          exact hp c (by simp) (this.subset (by simp))
        rw [cellInline, Node.children, hi, hcell.1, joinWith, escapeTableCell_plain hpipe, if_neg h0, List.flatMap_singleton, leafRefs_paragraph hread]
    rw [List.map_cons, hcell, List.map_cons, h1, List.flatMap_cons, h2, List.flatMap_append]
    exact ⟨rfl, rfl⟩

theorem rows_inline {cx : Cx} {src : List Char} {links : LinkMap} (hr : '\r' ∉ src) (ho : NestedOptions cx.opts) :
    ∀ (rows : List (List (List Char))) (ns : List Node), (∀ b ∈ cellBlocks rows, CoreValid b ∧ BlockLinks cx b) → (∀ c ∈ rows.flatten, '|' ∉ c) →
      RowNodes src links rows ns →
      (ns.map fun r => r.children.map (cellInline (withSource cx src))).map (·.map (·.1)) = (rows.map fun r => r.map (mapCell (curlBlock cx))) ∧
      (ns.map fun r => r.children.map (cellInline (withSource cx src))).flatten.flatMap (·.2) = (cellBlocks rows).flatMap (leafRefs links) ∧
      ns.length = rows.length
  | [], ns, _, _, hn => by rw [RowNodes] at hn; subst hn; simp [cellBlocks]
  | r :: rows, ns, hv, hp, hn => by
    obtain ⟨p, cs, rest, rfl, hk, hrest⟩ := hn
    rw [cellBlocks_cons] at hv ⊢
    obtain ⟨h1, h2, h3⟩ := rows_inline hr ho rows rest (fun b hb => hv b (by simp [hb])) (fun x hx => hp x (by simp at hx ⊢; exact .inr hx)) hrest
    obtain ⟨h4, h5⟩ := cells_inline hr ho r cs (fun b hb => hv b (by simp [hb])) (fun x hx => hp x (by simp [hx])) hk
    rw [List.map_cons, List.map_cons, h1, List.flatten_cons, List.flatMap_append, h2, Node.children, h4, h5, List.flatMap_append]
    exact ⟨rfl, rfl, by simp [h3]⟩

theorem ser_top {cx : Cx} {src : List Char} {links : LinkMap} (hr : '\r' ∉ src) (ho : NestedOptions cx.opts) (hcb : cx.callback = none) {b : TreeBlock}
    (hv : ∀ l ∈ leaves b, CoreValid l ∧ BlockLinks cx l) (hs : shaped b = true) {n : Node} (hn : TreeNode src links b n) (nb : Bool) (ws : List Warning)
    (rs : List (List Char × Ref) × List (List Char)) (out : List Char) :
    ∃ ws', ser (withSource cx src) n nb (coreSt ws rs out) = (coreSt ws' rs out).wrote (treeText cx 0 (curlTree cx b)) ((leaves b).flatMap (leafRefs links)) := by
  cases b with
  | table g aligns rows =>
    rw [TreeNode] at hn
    obtain ⟨p, ns, rfl, hn⟩ := hn
    rw [shaped, Bool.and_eq_true] at hs
    rw [leaves] at hv
    obtain ⟨h1, h2, h3⟩ := rows_inline hr ho rows ns hv (fun c hc => by simpa using List.all_eq_true.1 hs.2 c hc) hn
    have h0 : ns.isEmpty = false := by
      cases ns with
      | cons _ _ => rfl
      | nil => cases rows with
        | nil => simp at hs
        | cons _ _ => simp at h3
    refine ⟨ws ++ tableWarnings (withSource cx src).sourceLines p aligns.length, ?_⟩
    rw [ser, dispatch, serKids_nodes, serTable, h0, if_neg (by simp)]
    simp only
    rw [h1, h2, addReferences_plain _ _ rfl, wrote_push]
    rfl
  | quote g a bs =>
    rw [TreeNode] at hn
    obtain ⟨p, ns, hq, hn⟩ := hn
    refine ⟨ws, ?_⟩
    have key : ∀ out, serBlockQuote (serKids (withSource cx src) ns) (coreSt ws rs out) =
        (coreSt ws rs out).wrote (quoteText cx (bs.map (curlBlock cx))) (bs.flatMap (leafRefs links)) := by
      intro out
      rw [serBlockQuote]
      have := ser_quoteKids hr ho hcb bs ns (enterQuote (coreSt ws rs out)) (by simpa [leaves] using hv) hn
        ⟨rfl, rfl, rfl, rfl, rfl⟩
      rw [show (coreSt ws rs out).listItemIndent ++ (coreSt ws rs out).blockquotePrefix ++ ['>', '\n'] = ['>', '\n'] from rfl, this]
      simp [exitQuote, enterQuote, St.wrote, coreSt]
    rw [curlTree, mapTree, treeText, leaves]
    cases a with
    | none =>
      obtain rfl : n = _ := hq
      rw [ser, dispatch, key]; rfl
    | some a =>
      obtain ⟨rfl, hq⟩ := hq
      rw [shaped] at hs
      obtain ⟨m, ns', rfl⟩ : ∃ m ns', ns = m :: ns' := by
        cases bs with
        | nil => simp at hs
        | cons b bs => obtain ⟨m, ns', e, _⟩ := hn; exact ⟨m, ns', e⟩
      have hq := hq m rfl
      rw [ser, dispatch, serAlert]
      have hb : ((serKids (withSource cx src) (m :: ns')).head?.any fun k => decide (p.startLine + 1 < k.node.pos.startLine)) = a.blank := by
        rw [serKids]
        show decide (p.startLine + 1 < m.pos.startLine) = a.blank
        cases h : a.blank with
        | true => simpa using hq.1 h
        | false =>
          rw [h] at hq
          simpa using hq
      simp only [hb]
      have push : ∀ t, (coreSt ws rs out).push t = coreSt ws rs (out ++ t) := fun _ => rfl
      have wrote : ∀ t u r, (coreSt ws rs (out ++ t)).wrote u r = (coreSt ws rs out).wrote (t ++ u) r := by
        intro t u r
        simp [coreSt, St.wrote]
      cases h : a.blank with
      | true =>
        rw [if_pos rfl, push]
        show serBlockQuote _ ((coreSt ws rs _).push _) = _
        rw [show ∀ o t, (coreSt ws rs o).push t = coreSt ws rs (o ++ t) from fun _ _ => rfl, key, List.append_assoc, wrote]
        simp [alertText, h, coreSt]
      | false =>
        rw [if_neg (by simp), push, key, wrote]
        simp [alertText, h, coreSt]
  | list g s t items =>
    refine ⟨ws, ?_⟩
    rw [ser_tree hr ho hcb _ 0 n nb (coreSt ws rs out) hv hs rfl hn ⟨rfl, rfl, rfl, rfl, rfl, fun h => absurd h (by omega), rfl⟩]
  | leaf g b =>
    rw [TreeNode] at hn
    obtain ⟨hv, hq⟩ := hv b (by simp [leaves])
    refine ⟨ws, ?_⟩
    rw [curlTree, mapTree, treeText, leafText, leaves, List.flatMap_singleton]
    cases b with
    | heading level ls => exact ser_core hr ho.toCoreOptions hcb hv hq hn nb ws rs out
    | code info ls => exact ser_core hr ho.toCoreOptions hcb hv hq hn nb ws rs out
    | rule => exact ser_core hr ho.toCoreOptions hcb hv hq hn nb ws rs out
    | definition _ _ => exact absurd hn id
    | paragraph ls =>
      obtain ⟨p, cs, raw, rfl, hc, hp, hpre, hlast⟩ := hn
      obtain ⟨l, r, rfl⟩ := List.exists_cons_of_ne_nil hv.1
      have ha := no_abbreviation_raw (cx := cx) hr hv hpre hp hlast
      obtain ⟨a, hread⟩ := hv.2.2
      have hi := (collects_lines (cx := cx) hr ho.dashes hread hq hc).1
      rw [ser, dispatch, serKids_nodes, serParagraph, ha]
      simp only [hi]
      rw [leafRefs_paragraph hread, addReferences_plain _ _ rfl, if_neg (by simp [coreSt, St.wrote]), wrote_push]
      rfl

theorem curl_cellBlocks {cx : Cx} (ho : DashesOk cx.opts.punct) {rows : List (List (List Char))} (hv : ∀ b ∈ cellBlocks rows, CoreValid b) :
    cellBlocks (rows.map fun r => r.map (mapCell (curlBlock cx))) = (cellBlocks rows).map (curlBlock cx) := by
  have row : ∀ r : List (List Char), (∀ b ∈ cellBlocks [r], CoreValid b) → cellBlocks [r.map (mapCell (curlBlock cx))] = (cellBlocks [r]).map (curlBlock cx) := by
    intro r
    induction r with
    | nil => intro _; rfl
    | cons c cs ih =>
      intro h
      rw [cellBlocks_cell] at h
      rw [List.map_cons, cellBlocks_cell, cellBlocks_cell, List.map_append, ih fun b hb => h b (by simp [hb])]
      by_cases h0 : c = []
      · subst h0; rfl
      · have hc := curl_cell (cx := cx) ho h0 (h _ (by rw [if_neg h0]; simp))
        have hne : mapCell (curlBlock cx) c ≠ [] := fun e => by
          rw [e] at hc
          exact h0 (List.eq_nil_of_length_eq_zero (pairs_length hc.2))
        rw [if_neg h0, if_neg hne, List.map_cons, curlBlock, hc.1]; rfl
  induction rows with
  | nil => rfl
  | cons r rows ih =>
    rw [cellBlocks_cons] at hv
    rw [List.map_cons, cellBlocks_cons, cellBlocks_cons r, List.map_append, row r fun b hb => hv b (by simp [hb]), ih fun b hb => hv b (by simp [hb])]

mutual

theorem leaves_curl {cx : Cx} (ho : DashesOk cx.opts.punct) : ∀ b : TreeBlock, (∀ l ∈ leaves b, CoreValid l) →
    leaves (curlTree cx b) = (leaves b).map (curlBlock cx)
  | .leaf g b, _ => by rw [curlTree, mapTree, leaves, leaves]; rfl
  | .quote g a bs, _ => by rw [curlTree, mapTree, leaves, leaves]
  | .list g s t items, h => by
    rw [leaves] at h
    rw [curlTree, mapTree, leaves, leaves, itemsLeaves_curl ho items h]
  | .table g al rows, h => by
    rw [leaves] at h
    rw [curlTree, mapTree, leaves, leaves, curl_cellBlocks ho h]

theorem itemsLeaves_curl {cx : Cx} (ho : DashesOk cx.opts.punct) : ∀ items : List (List TreeBlock), (∀ l ∈ itemsLeaves items, CoreValid l) →
    itemsLeaves (mapItems (curlBlock cx) items) = (itemsLeaves items).map (curlBlock cx)
  | [], _ => by rw [mapItems, itemsLeaves]; rfl
  | it :: its, h => by
    rw [itemsLeaves] at h
    rw [mapItems, itemsLeaves, itemsLeaves, List.map_append, blocksLeaves_curl ho it fun l hl => h l (by simp [hl]),
      itemsLeaves_curl ho its fun l hl => h l (by simp [hl])]

theorem blocksLeaves_curl {cx : Cx} (ho : DashesOk cx.opts.punct) : ∀ bs : List TreeBlock, (∀ l ∈ blocksLeaves bs, CoreValid l) →
    blocksLeaves (mapTrees (curlBlock cx) bs) = (blocksLeaves bs).map (curlBlock cx)
  | [], _ => by rw [mapTrees, blocksLeaves]; rfl
  | b :: bs, h => by
    rw [blocksLeaves] at h
    rw [mapTrees, blocksLeaves, blocksLeaves, List.map_append, leaves_curl ho b fun l hl => h l (by simp [hl]),
      blocksLeaves_curl ho bs fun l hl => h l (by simp [hl])]

end

theorem curlTree_refs {cx : Cx} (ho : DashesOk cx.opts.punct) {links : LinkMap} {b : TreeBlock} (hv : ∀ l ∈ leaves b, CoreValid l) :
    (leaves (curlTree cx b)).flatMap (leafRefs links) = (leaves b).flatMap (leafRefs links) := by
  rw [leaves_curl ho b hv, List.flatMap_map]
  exact flatMap_congr_mem fun l hl => curl_refs ho (hv l hl)

/-- A block that is treated like the block by the document loop. -/
def topCore : TreeBlock → CoreBlock
  | .leaf _ b => b
  | .quote _ _ _ => .rule
  | .list _ _ _ _ => .rule
  | .table _ _ _ => .rule

/-- What is written for a document with its definitions; `prev` is the block before that is no
definition, `after` says that a definition stands before. -/
def treeDoc (cx : Cx) : Option TreeBlock → Bool → List TreeBlock → List Char
  | _, _, [] => []
  | prev, after, b :: bs =>
    if b.isDefinition then (if after then [] else ['\n']) ++ treeText cx 0 b ++ treeDoc cx prev true bs
    else coreGap (prev.map topCore) (topCore b) ++ treeText cx 0 b ++ treeDoc cx (some b) false bs

/-- The references that are written next. -/
def duePending (rs : List (List Char × Ref) × List (List Char)) : List Ref :=
  outputOrder (fun r => numericLabel r.label) ((rs.1.map (·.2)).filter fun r => !rs.2.contains r.label)

/-- The definition of a reference. -/
def defBlock (r : Ref) : TreeBlock := .leaf false (.definition r.label (r.url, r.title))

/-- Are the definitions written before the block? -/
def flushesBefore (b : TreeBlock) : Bool := coreLevel (topCore b) = some 2 || coreLevel (topCore b) = some 3

/-- Pending and emitted references after definitions were written. -/
def flushed (rs : List (List Char × Ref) × List (List Char)) : List (List Char × Ref) × List (List Char) :=
  ([], rs.2 ++ (duePending rs).map (·.label))

/-- The blocks of a document and the definitions that are written for them; `start` says that no
block stands before. -/
noncomputable def place (links : LinkMap) : Bool → List (List Char × Ref) × List (List Char) → List TreeBlock → List TreeBlock
  | _, rs, [] => (duePending rs).map defBlock
  | start, rs, b :: bs =>
    if !start && flushesBefore b then
      (duePending rs).map defBlock ++ b ::
        place links false (addRefs (flushed rs).1 ((leaves b).flatMap (leafRefs links)), (flushed rs).2) bs
    else b :: place links false (addRefs rs.1 ((leaves b).flatMap (leafRefs links)), rs.2) bs

theorem leafNode_footnotes {src : List Char} {links : LinkMap} {b : CoreBlock} {n : Node} (h : LeafNode src links b n) : footnoteRefLines n = [] := by
  cases b with
  | heading level ls =>
    obtain ⟨p, cs, rfl, hc⟩ := h
    simp [footnoteRefLines, lineNodes_footnotes ls cs hc]
  | paragraph ls =>
    obtain ⟨p, cs, raw, rfl, hc, _⟩ := h
    simp [footnoteRefLines, lineNodes_footnotes ls cs hc]
  | code info ls =>
    obtain ⟨p, rfl⟩ := h
    simp [footnoteRefLines, footnoteRefLinesList]
  | rule =>
    obtain ⟨p, rfl⟩ := h
    simp [footnoteRefLines, footnoteRefLinesList]
  | definition _ _ => exact absurd h id

theorem leafNodes_footnotes {src : List Char} {links : LinkMap} : ∀ (bs : List CoreBlock) (ns : List Node), LeafNodes src links bs ns →
    footnoteRefLinesList ns = []
  | [], ns, h => by rw [LeafNodes] at h; subst h; rfl
  | b :: bs, ns, h => by
    obtain ⟨n, rest, rfl, hn, hr⟩ := h
    simp [footnoteRefLinesList, leafNode_footnotes hn, leafNodes_footnotes bs rest hr]

theorem cellNodes_footnotes {src : List Char} {links : LinkMap} : ∀ (cs : List (List Char)) (ns : List Node), CellNodes src links cs ns →
    footnoteRefLinesList ns = []
  | [], ns, h => by rw [CellNodes] at h; subst h; rfl
  | c :: cs, ns, h => by
    obtain ⟨p, ks, rest, rfl, hk, hr⟩ := h
    have : footnoteRefLinesList ks = [] := by
      split at hk
      · rw [hk]; rfl
      · exact lineNodes_footnotes [c] ks hk
    simp [footnoteRefLinesList, footnoteRefLines, this, cellNodes_footnotes cs rest hr]

theorem rowNodes_footnotes {src : List Char} {links : LinkMap} : ∀ (rs : List (List (List Char))) (ns : List Node), RowNodes src links rs ns →
    footnoteRefLinesList ns = []
  | [], ns, h => by rw [RowNodes] at h; subst h; rfl
  | r :: rs, ns, h => by
    obtain ⟨p, cs, rest, rfl, hc, hr⟩ := h
    simp [footnoteRefLinesList, footnoteRefLines, cellNodes_footnotes r cs hc, rowNodes_footnotes rs rest hr]

mutual

theorem treeNode_footnotes {src : List Char} {links : LinkMap} : ∀ (b : TreeBlock) (n : Node), TreeNode src links b n → footnoteRefLines n = []
  | .leaf _ b, n, h => by rw [TreeNode] at h; exact leafNode_footnotes h
  | .quote _ a bs, n, h => by
    rw [TreeNode] at h
    obtain ⟨p, ns, hq, h⟩ := h
    obtain ⟨v, rfl, hv⟩ := quoteNode_value hq
    rcases hv with ⟨_, rfl⟩ | ⟨_, _, rfl⟩ <;> simp [footnoteRefLines, leafNodes_footnotes bs ns h]
  | .list _ _ _ items, n, h => by
    rw [TreeNode] at h
    obtain ⟨p, ns, rfl, h⟩ := h
    simp [footnoteRefLines, itemNodes_footnotes items ns h]
  | .table _ _ rows, n, h => by
    rw [TreeNode] at h
    obtain ⟨p, ns, rfl, h⟩ := h
    simp [footnoteRefLines, rowNodes_footnotes rows ns h]

theorem itemNodes_footnotes {src : List Char} {links : LinkMap} : ∀ (items : List (List TreeBlock)) (ns : List Node), ItemNodes src links items ns →
    footnoteRefLinesList ns = []
  | [], ns, h => by rw [ItemNodes] at h; subst h; rfl
  | it :: its, ns, h => by
    rw [ItemNodes] at h
    obtain ⟨p, cs, rest, rfl, hc, hr⟩ := h
    simp [footnoteRefLinesList, footnoteRefLines, childNodes_footnotes it none cs hc, itemNodes_footnotes its rest hr]

theorem childNodes_footnotes {src : List Char} {links : LinkMap} : ∀ (bs : List TreeBlock) (prev : Option Node) (ns : List Node), ChildNodes src links prev bs ns →
    footnoteRefLinesList ns = []
  | [], _, ns, h => by rw [ChildNodes] at h; subst h; rfl
  | b :: bs, _, ns, h => by
    rw [ChildNodes] at h
    obtain ⟨n, rest, rfl, hn, _, hr⟩ := h
    simp [footnoteRefLinesList, treeNode_footnotes b n hn, childNodes_footnotes bs (some n) rest hr]

end

theorem topNode {src : List Char} {links : LinkMap} {b : TreeBlock} {n : Node} (h : TreeNode src links b n) : CoreNode (topCore b) n := by
  have hf := treeNode_footnotes b n h
  cases b with
  | quote g a bs =>
    rw [TreeNode] at h
    obtain ⟨p, ns, hq, h⟩ := h
    obtain ⟨v, rfl, hv⟩ := quoteNode_value hq
    rcases hv with ⟨_, rfl⟩ | ⟨_, _, rfl⟩ <;> exact ⟨rfl, rfl, rfl, rfl, rfl, hf⟩
  | list g s t items =>
    rw [TreeNode] at h
    obtain ⟨p, ns, rfl, h⟩ := h
    exact ⟨rfl, rfl, rfl, rfl, rfl, hf⟩
  | table g aligns rows =>
    rw [TreeNode] at h
    obtain ⟨p, ns, rfl, h⟩ := h
    exact ⟨rfl, rfl, rfl, rfl, rfl, hf⟩
  | leaf g b =>
    rw [TreeNode] at h
    cases b with
    | heading level ls => obtain ⟨p, cs, rfl, hc⟩ := h; exact ⟨rfl, rfl, rfl, rfl, rfl, hf⟩
    | paragraph ls => obtain ⟨p, cs, raw, rfl, hc, _⟩ := h; exact ⟨rfl, rfl, rfl, rfl, rfl, hf⟩
    | code info ls => obtain ⟨p, rfl⟩ := h; exact ⟨rfl, rfl, rfl, rfl, rfl, hf⟩
    | rule => obtain ⟨p, rfl⟩ := h; exact ⟨rfl, rfl, rfl, rfl, rfl, hf⟩
    | definition _ _ => exact absurd h id

theorem topNodes_mem {src : List Char} {links : LinkMap} : ∀ {bs : List TreeBlock} {ns : List Node}, TopNodes src links bs ns →
    ns.length = bs.length ∧ ∀ n ∈ ns, ∃ b ∈ bs, TreeNode src links b n
  | [], ns, h => by rw [TopNodes] at h; subst h; simp
  | b :: bs, ns, h => by
    obtain ⟨m, rest, rfl, hm, hr⟩ := h
    have ih := topNodes_mem hr
    refine ⟨by simp [ih.1], ?_⟩
    intro n hn
    rcases List.mem_cons.1 hn with rfl | hn
    · exact ⟨b, by simp, hm⟩
    · obtain ⟨c, hc, h⟩ := ih.2 n hn
      exact ⟨c, by simp [hc], h⟩

/-- The text ends with one line break. -/
def EndsOnce (t : List Char) : Prop := ∃ x c, t = x ++ [c, '\n'] ∧ c ≠ '\n'

theorem endsOnce_append {t : List Char} (h : EndsOnce t) (s : List Char) : EndsOnce (s ++ t) := by
  obtain ⟨x, c, rfl, hc⟩ := h
  exact ⟨s ++ x, c, by simp, hc⟩

theorem gapOf_once {t : List Char} (h : EndsOnce t) : gapOf t = ['\n'] := by
  obtain ⟨x, c, rfl, hc⟩ := h
  have h1 : ['\n', '\n'].isSuffixOf (x ++ [c, '\n']) = false := by
    rw [Bool.eq_false_iff]
    intro h
    obtain ⟨y, hy⟩ := List.isSuffixOf_iff_suffix.1 h
    have := List.append_inj_right' (by simpa using hy : y ++ ['\n', '\n'] = x ++ [c, '\n']) rfl
    simp only [List.cons.injEq] at this
    exact hc this.1.symm
  have h2 : ['\n'].isSuffixOf (x ++ [c, '\n']) = true := List.isSuffixOf_iff_suffix.2 ⟨x ++ [c], by simp⟩
  rw [gapOf, h1, h2]
  rfl

theorem flushAll_refs (cx : Cx) (before : Option Nat) (ws : List Warning) (rs : List (List Char × Ref) × List (List Char)) (out : List Char) :
    flushAll cx before (coreSt ws rs out) = coreSt ws (flushed rs) (out ++ groupText out referenceText (duePending rs)) := by
  have h1 : flushFootnotesBefore cx before (coreSt ws rs out) = coreSt ws rs out := by simp [flushFootnotesBefore, coreSt]
  rw [flushAll, h1, flushReferences_eq]
  have h2 : refsOut (coreSt ws rs out) = duePending rs := rfl
  rw [h2]
  simp [flushFootnoteRefsBefore, coreSt, flushed]

theorem treeDoc_defs_after (cx : Cx) (prev : Option TreeBlock) (bs : List TreeBlock) : ∀ rs : List Ref,
    treeDoc cx prev true (rs.map defBlock ++ bs) = (rs.map referenceText).flatten ++ treeDoc cx prev true bs
  | [] => by simp
  | r :: rs => by
    rw [List.map_cons, List.cons_append, treeDoc, if_pos (show (defBlock r).isDefinition = true from rfl), treeDoc_defs_after cx prev bs rs]
    simp [defBlock, treeText, leafText, coreText]

theorem treeDoc_after {cx : Cx} {prev : Option TreeBlock} {a a' : Bool} {b : TreeBlock} {bs : List TreeBlock} (h : b.isDefinition = false) :
    treeDoc cx prev a (b :: bs) = treeDoc cx prev a' (b :: bs) := by
  rw [treeDoc, treeDoc, if_neg (by simp [h]), if_neg (by simp [h])]

/-- A group of definitions and what stands after it. -/
theorem treeDoc_defs {cx : Cx} {prev : Option TreeBlock} {bs : List TreeBlock} (hb : ∀ b ∈ bs.head?, b.isDefinition = false) {out : List Char}
    {rs : List Ref} (h : rs = [] ∨ EndsOnce out) :
    treeDoc cx prev false (rs.map defBlock ++ bs) = groupText out referenceText rs ++ treeDoc cx prev false bs := by
  have e : treeDoc cx prev true bs = treeDoc cx prev false bs := by
    cases bs with
    | nil => rfl
    | cons b bs => exact treeDoc_after (hb b rfl)
  cases rs with
  | nil => simp [groupText]
  | cons r rs =>
    rw [groupText, if_neg (by simp), gapOf_once (h.resolve_left (by simp)), ← e, List.map_cons, List.cons_append, treeDoc,
      if_pos (show (defBlock r).isDefinition = true from rfl), treeDoc_defs_after]
    simp [defBlock, treeText, leafText, coreText]

theorem duePending_nil {rs : List (List Char × Ref) × List (List Char)} (h : rs.1 = []) : duePending rs = [] := by
  rw [duePending, h]; exact outputOrder_nil _

theorem curlTree_node (cx : Cx) {b : TreeBlock} {n : Node} (h : CoreNode (topCore b) n) : CoreNode (topCore (curlTree cx b)) n := by
  cases b with
  | leaf g b => rw [curlTree, mapTree]; exact coreNode_curl cx h
  | _ => rw [curlTree, mapTree]; exact h

theorem loop_tree {cx : Cx} {src : List Char} {links : LinkMap} (hr : '\r' ∉ src) (ho : NestedOptions cx.opts) (hcb : cx.callback = none) :
    ∀ (bs : List TreeBlock) (ns : List Node) (prev : Option TreeBlock) (pn : Option Node) (main : Nat)
      (ws : List Warning) (rs : List (List Char × Ref) × List (List Char)) (out : List Char),
      (∀ l ∈ blocksLeaves bs, CoreValid l ∧ BlockLinks cx l) → shapedBlocks bs = true → (∀ b ∈ bs, EndsOnce (treeText cx 0 (curlTree cx b))) → TopNodes src links bs ns →
      CorePrev src (prev.map topCore) pn → bs.length ≤ main → (rs.1 = [] ∨ EndsOnce out) →
      ∃ ws' rs' out', serTopLoop (withSource cx src) pn main (serKids (withSource cx src) ns) (coreSt ws rs out) = (coreSt ws' rs' out', false) ∧
        out' ++ groupText out' referenceText (duePending rs') = out ++ treeDoc cx prev false (place links prev.isNone rs (bs.map (curlTree cx)))
  | [], ns, prev, pn, main, ws, rs, out, _, _, _, hn, _, _, he => by
    rw [TopNodes] at hn; subst hn
    refine ⟨ws, rs, out, by rw [serKids, serTopLoop], ?_⟩
    have := treeDoc_defs (cx := cx) (prev := prev) (bs := []) (by simp) (out := out) (rs := duePending rs) (he.imp_left duePending_nil)
    rw [List.map_nil, place, ← List.append_nil ((duePending rs).map defBlock), this]
    simp [treeDoc]
  | b :: bs, ns, prev, pn, main, ws, rs, out, hv, hs, hends, hn, hp, hm, he => by
    obtain ⟨n, rest, rfl, hb, hrest⟩ := hn
    rw [blocksLeaves] at hv
    rw [shapedBlocks, Bool.and_eq_true] at hs
    have hc : CoreNode (topCore (curlTree cx b)) n := curlTree_node cx (topNode hb)
    have hdef' := curlTree_isDefinition cx b
    have hrefs := curlTree_refs (cx := cx) (links := links) (b := b) ho.dashes (fun l hl => (hv l (by simp [hl])).1)
    have hm0 : (main == 0) = false := by simp at hm ⊢; omega
    have hdef : b.isDefinition = false := by
      cases b with
      | quote _ _ _ => rfl
      | list _ _ _ _ => rfl
      | table _ _ _ => rfl
      | leaf g b =>
        cases b with
        | definition _ _ => rw [TreeNode] at hb; exact absurd hb id
        | _ => rfl
    have hgap : blockGap pn n = coreGap (prev.map topCore) (topCore (curlTree cx b)) := by
      cases prev with
      | none =>
        cases pn with
        | none => rfl
        | some m => exact absurd hp (by simp [CorePrev])
      | some a =>
        cases pn with
        | none => exact absurd hp (by simp [CorePrev])
        | some m => exact blockGap_core hp hc
    have hpn : pn.isSome = prev.isSome := by
      cases prev <;> cases pn <;> first | rfl | exact absurd hp (by simp [CorePrev])
    have hflush : (pn.isSome = true ∧ (n.headingLevel = some 2 ∨ n.headingLevel = some 3)) ↔ (!prev.isNone && flushesBefore (curlTree cx b)) = true := by
      rw [hpn, hc.level]
      cases prev <;> simp [flushesBefore]
    rw [hdef] at hdef'
    have hends0 := hends b (by simp)
    generalize hb1 : curlTree cx b = b1 at *
    -- the state before the block
    obtain ⟨rs1, out1, h1, h2, h3⟩ : ∃ rs1 out1,
        (if pn.isSome = true ∧ (n.headingLevel = some 2 ∨ n.headingLevel = some 3) then
          flushAll (withSource cx src) (some n.pos.startLine) (coreSt ws rs out) else coreSt ws rs out) = coreSt ws rs1 out1 ∧
        (∀ ps, (∀ p ∈ ps.head?, p.isDefinition = false) → out ++ treeDoc cx prev false
          ((if (!prev.isNone && flushesBefore b1) = true then (duePending rs).map defBlock else []) ++ ps) = out1 ++ treeDoc cx prev false ps) ∧
        rs1 = if (!prev.isNone && flushesBefore b1) = true then flushed rs else rs := by
      by_cases hfl : (!prev.isNone && flushesBefore b1) = true
      · refine ⟨flushed rs, _, by rw [if_pos (hflush.2 hfl), flushAll_refs], ?_, by rw [if_pos hfl]⟩
        intro ps hps
        rw [if_pos hfl, treeDoc_defs hps (he.imp_left duePending_nil), List.append_assoc]
      · exact ⟨rs, out, by rw [if_neg (mt hflush.1 hfl)], fun ps hps => by rw [if_neg hfl, List.nil_append], by rw [if_neg hfl]⟩
    obtain ⟨ws', hser⟩ := ser_top hr ho hcb (fun l hl => hv l (by simp [hl])) hs.1 hb (nextIsBracket rest) ws rs1
      (out1 ++ coreGap (prev.map topCore) (topCore b1))
    have hchild : serTopChild (withSource cx src) pn false ⟨n, ser (withSource cx src) n (nextIsBracket rest)⟩ (coreSt ws rs out) =
        (coreSt ws' (addRefs rs1.1 ((leaves b).flatMap (leafRefs links)), rs1.2)
          (out1 ++ coreGap (prev.map topCore) (topCore b1) ++ treeText cx 0 b1), false) := by
      unfold serTopChild
      simp only [Bool.false_and, Bool.false_eq_true, if_false, hc.foot, hc.directive, h1]
      rw [hgap]
      have : (coreSt ws rs1 out1).push (coreGap (prev.map topCore) (topCore b1)) = coreSt ws rs1 (out1 ++ coreGap (prev.map topCore) (topCore b1)) := rfl
      rw [this, serTopBlock, if_pos (show (coreSt ws rs1 (out1 ++ coreGap (prev.map topCore) (topCore b1))).skipMode = SkipMode.none from rfl)]
      simp only [hser, hb1]
      rfl
    rw [serKids, serTopLoop]
    simp only [hm0, hchild, Bool.false_eq_true, if_false]
    obtain ⟨ws', rs', out', e1, e2⟩ := loop_tree hr ho hcb bs rest (some b1) (some n) (main - 1) ws'
      (addRefs rs1.1 ((leaves b).flatMap (leafRefs links)), rs1.2) (out1 ++ coreGap (prev.map topCore) (topCore b1) ++ treeText cx 0 b1)
      (fun x hx => hv x (by simp [hx])) hs.2 (fun x hx => hends x (by simp [hx])) hrest hc (by simp at hm; omega)
      (.inr (endsOnce_append hends0 _))
    refine ⟨ws', rs', out', e1, ?_⟩
    rw [e2]
    have e3 : place links prev.isNone rs ((b :: bs).map (curlTree cx)) =
        (if (!prev.isNone && flushesBefore b1) = true then (duePending rs).map defBlock else []) ++
          b1 :: place links false (addRefs rs1.1 ((leaves b).flatMap (leafRefs links)), rs1.2) (bs.map (curlTree cx)) := by
      rw [List.map_cons, hb1, place, h3, hrefs]
      split <;> rfl
    rw [e3, h2 _ (by simp [hdef']), treeDoc, if_neg (by simp [hdef'])]
    simp

theorem format_tree {cx : Cx} {src : List Char} (hr : '\r' ∉ src) (ho : NestedOptions cx.opts) (hcb : cx.callback = none) {d : List TreeBlock}
    (hv : ∀ l ∈ blocksLeaves (shownTrees d), CoreValid l ∧ BlockLinks cx l) (hs : shapedBlocks (shownTrees d) = true)
    (hends : ∀ b ∈ shownTrees d, EndsOnce (treeText cx 0 (curlTree cx b))) {root : Node} (ht : IsDocument src d root) :
    (formatDoc (withSource cx src) root).output = treeDoc cx none false (place (linksOf d) true ([], []) ((shownTrees d).map (curlTree cx))) := by
  obtain ⟨p, ns, rfl, hn⟩ := ht
  have hall : ∀ n ∈ ns, ∃ b, CoreNode b n := by
    intro n hm
    obtain ⟨b, _, h⟩ := (topNodes_mem hn).2 n hm
    exact ⟨_, topNode h⟩
  have hrefs : footnoteRefLinesList ns = [] := by
    have : ∀ ms : List Node, (∀ n ∈ ms, ∃ b, CoreNode b n) → footnoteRefLinesList ms = [] := by
      intro ms
      induction ms with
      | nil => intro _; rfl
      | cons m ms ih =>
        intro h
        obtain ⟨b, hb⟩ := h m (by simp)
        rw [footnoteRefLinesList, hb.refs, ih (fun n hn => h n (by simp [hn]))]; rfl
    exact this ns hall
  have hfilter : (serKids (withSource cx src) ns).filter (fun k => k.node.isFootnoteDefinition) = [] := by
    rw [List.filter_eq_nil_iff]
    intro k hk
    have : k.node ∈ ns := by
      have := List.mem_map_of_mem (f := (·.node)) hk
      rwa [serKids_nodes] at this
    obtain ⟨b, hb⟩ := hall _ this
    rw [hb.foot]; simp
  have htrail : trailingCount ns.reverse = 0 := by
    cases h : ns.reverse with
    | nil => rfl
    | cons m ms =>
      obtain ⟨b, hb⟩ := hall m (by rw [← List.mem_reverse, h]; simp)
      rw [trailingCount, if_neg (by simp [Node.isPlainHtml, hb.html]), if_neg (by simp [hb.foot])]
  unfold formatDoc
  rw [ser, dispatch, serDocument]
  simp only [serKids_nodes, hrefs, recordLines, List.foldl_nil, serFootnoteDefinitions, hfilter, runKids, trailingStart, htrail, Nat.sub_zero]
  obtain ⟨ws', rs', out', h1, h2⟩ := loop_tree hr ho hcb (shownTrees d) ns none none ns.length (undefinedWarnings (withSource cx src) ns) ([], []) [] hv hs
    hends hn trivial (by rw [(topNodes_mem hn).1]; omega) (.inl rfl)
  rw [show ({ ({} : St) with warnings := ({} : St).warnings ++ undefinedWarnings (withSource cx src) ns }) =
    coreSt (undefinedWarnings (withSource cx src) ns) ([], []) [] from by simp [coreSt]]
  rw [h1]
  simp only [Bool.false_eq_true, if_false, flushAll_refs, List.drop_length]
  simpa [outputTrailing, coreSt] using h2

/-! ### Documents without marks to be replaced -/

theorem curl_rows_kept {cx : Cx} (ho : DashesOk cx.opts.punct) {rows : List (List (List Char))} (h : ∀ b ∈ cellBlocks rows, CoreValid b ∧ BlockKept cx b) :
    (rows.map fun r => r.map (mapCell (curlBlock cx))) = rows := by
  have cell : ∀ c : List Char, (c ≠ [] → CoreValid (.paragraph [c]) ∧ BlockKept cx (.paragraph [c])) → mapCell (curlBlock cx) c = c := by
    intro c hc
    by_cases h0 : c = []
    · rw [mapCell, if_pos h0, h0]
    · obtain ⟨hv, hq⟩ := hc h0
      rw [mapCell, if_neg h0, curlBlock_kept ho hv hq]
  have row : ∀ r : List (List Char), (∀ b ∈ cellBlocks [r], CoreValid b ∧ BlockKept cx b) → r.map (mapCell (curlBlock cx)) = r := by
    intro r
    induction r with
    | nil => intro _; rfl
    | cons c cs ih =>
      intro h
      rw [cellBlocks_cell] at h
      rw [List.map_cons, ih fun b hb => h b (by simp [hb]), cell c fun h0 => h _ (by rw [if_neg h0]; simp)]
  induction rows with
  | nil => rfl
  | cons r rows ih =>
    rw [cellBlocks_cons] at h
    rw [List.map_cons, row r fun b hb => h b (by simp [hb]), ih fun b hb => h b (by simp [hb])]

mutual

theorem curlTree_kept {cx : Cx} (ho : DashesOk cx.opts.punct) : ∀ b : TreeBlock, (∀ l ∈ leaves b, CoreValid l ∧ BlockKept cx l) → curlTree cx b = b
  | .leaf g b, h => by
    have := h b (by simp [leaves])
    rw [curlTree, mapTree, curlBlock_kept ho this.1 this.2]
  | .quote g a bs, h => by
    rw [leaves] at h
    rw [curlTree, mapTree]
    congr 1
    conv => rhs; rw [← List.map_id bs]
    exact List.map_congr_left fun b hb => curlBlock_kept ho (h b hb).1 (h b hb).2
  | .list g s t items, h => by
    rw [leaves] at h
    rw [curlTree, mapTree, curlItems_kept ho items h]
  | .table g al rows, h => by
    rw [leaves] at h
    rw [curlTree, mapTree, curl_rows_kept ho h]

theorem curlItems_kept {cx : Cx} (ho : DashesOk cx.opts.punct) : ∀ items : List (List TreeBlock), (∀ l ∈ itemsLeaves items, CoreValid l ∧ BlockKept cx l) →
    mapItems (curlBlock cx) items = items
  | [], _ => by rw [mapItems]
  | it :: its, h => by
    rw [itemsLeaves] at h
    rw [mapItems, curlTrees_kept ho it fun l hl => h l (by simp [hl]), curlItems_kept ho its fun l hl => h l (by simp [hl])]

theorem curlTrees_kept {cx : Cx} (ho : DashesOk cx.opts.punct) : ∀ bs : List TreeBlock, (∀ l ∈ blocksLeaves bs, CoreValid l ∧ BlockKept cx l) →
    mapTrees (curlBlock cx) bs = bs
  | [], _ => by rw [mapTrees]
  | b :: bs, h => by
    rw [blocksLeaves] at h
    rw [mapTrees, show mapTree (curlBlock cx) b = b from curlTree_kept ho b fun l hl => h l (by simp [hl]),
      curlTrees_kept ho bs fun l hl => h l (by simp [hl])]

end

theorem mem_blocksLeaves {bs : List TreeBlock} {b : TreeBlock} {l : CoreBlock} (hb : b ∈ bs) (hl : l ∈ leaves b) : l ∈ blocksLeaves bs := by
  induction bs with
  | nil => cases hb
  | cons x bs ih =>
    rw [blocksLeaves]
    rcases List.mem_cons.1 hb with rfl | hb
    · simp [hl]
    · simp [ih hb]

theorem format_tree_kept {cx : Cx} {src : List Char} {d : List TreeBlock} (hr : '\r' ∉ src) (ho : NestedOptions cx.opts) (hcb : cx.callback = none)
    (hv : ∀ l ∈ blocksLeaves (shownTrees d), CoreValid l ∧ BlockKept cx l) (hs : shapedBlocks (shownTrees d) = true)
    (hends : ∀ b ∈ shownTrees d, EndsOnce (treeText cx 0 b)) {root : Node} (ht : IsDocument src d root) :
    (formatDoc (withSource cx src) root).output = treeDoc cx none false (place (linksOf d) true ([], []) (shownTrees d)) := by
  have key : ∀ b ∈ shownTrees d, curlTree cx b = b := fun b hb => curlTree_kept ho.dashes b fun l hl => hv l (mem_blocksLeaves hb hl)
  rw [format_tree hr ho hcb (fun b hb => ⟨(hv b hb).1, blockLinks_of (hv b hb).2⟩) hs (fun b hb => by rw [key b hb]; exact hends b hb) ht,
    List.map_congr_left key, List.map_id']

end Hongdown.Model
