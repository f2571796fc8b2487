import Verif.Spec.BlockText
import Verif.Lemmas.DocRun
import Verif.Lemmas.WrapText
import Verif.Lemmas.Code
import Verif.Lemmas.Table

/-!
# No block loses its text
-/

namespace Hongdown

open Spec Model

/-- The visible characters of `t` are, in order, among those of `s`. -/
def VisIn (t s : List Char) : Prop := (visible t).Sublist (visible s)

theorem VisIn.refl (t : List Char) : VisIn t t := List.Sublist.refl _

theorem VisIn.append {t s t' s' : List Char} (h : VisIn t s) (h' : VisIn t' s') : VisIn (t ++ t') (s ++ s') := by
  rw [VisIn, visible_append, visible_append]
  exact List.Sublist.append h h'

theorem VisIn.right {t s : List Char} (h : VisIn t s) (x : List Char) : VisIn t (s ++ x) := by
  rw [VisIn, visible_append]
  exact h.trans (List.sublist_append_left _ _)

theorem VisIn.left {t s : List Char} (h : VisIn t s) (x : List Char) : VisIn t (x ++ s) := by
  rw [VisIn, visible_append]
  exact h.trans (List.sublist_append_right _ _)

theorem VisIn.nil (s : List Char) : VisIn [] s := List.nil_sublist _

theorem VisIn.trans {a b c : List Char} (h : VisIn a b) (h' : VisIn b c) : VisIn a c := List.Sublist.trans h h'

theorem within_of_visible {t s : List Char} (h : visible t = visible s) : VisIn t s := by
  rw [VisIn, h]
  exact List.Sublist.refl _

/-! ### Wrapping -/

theorem flatMap_sub {α : Type} {f g : α → List Char} {l : List α} (h : ∀ x ∈ l, (f x).Sublist (g x)) :
    (l.flatMap f).Sublist (l.flatMap g) := by
  induction l with
  | nil => exact List.Sublist.refl _
  | cons a l ih =>
    rw [List.flatMap_cons, List.flatMap_cons]
    exact List.Sublist.append (h a (by simp)) (ih fun x hx => h x (by simp [hx]))

theorem rawLines_sub (fp pfx : List Char) (gs : List (List Tok)) :
    (visible (tokText gs.flatten)).Sublist (visible (joinWith ['\n'] ((rawLines fp pfx gs).map trimEnd))) := by
  have key : ∀ ls : List (List Char), visible (joinWith ['\n'] (ls.map trimEnd)) = ls.flatMap visible := by
    intro ls
    induction ls with
    | nil => rfl
    | cons a r ih =>
      cases r with
      | nil => simp [joinWith, visible_trimEnd]
      | cons b r =>
        rw [List.map_cons, joinWith_cons _ _ (by simp), visible_append, visible_append, ih, visible_trimEnd,
          visible_ws (t := ['\n']) (by decide), List.append_nil, List.flatMap_cons (x := a)]
  rw [key, rawLines_eq_layout, tokText_flatten, visible_flatten]
  cases gs with
  | nil => exact List.Sublist.refl _
  | cons g gs =>
    simp only [List.map_cons, layout, List.flatMap_cons, visible_append, List.flatMap_map]
    exact List.Sublist.append (List.sublist_append_right _ _) (flatMap_sub fun _ _ => List.sublist_append_right _ _)

theorem wrapSingle_sub (w : List Char → Nat) (text fp pfx : List Char) (lw : Nat) :
    VisIn text (wrapSingle w text fp pfx lw) := by
  have := rawLines_sub fp pfx (groups w fp pfx lw (tokenize text))
  rw [groups_flatten, visible_tokenize] at this
  rw [VisIn, wrapSingle_eq]
  exact this

theorem wrapLines_sub (w : List Char → Nat) (pfx : List Char) (lw : Nat) :
    ∀ (ls : List (List Char)) (result cur : List Char),
      (visible result ++ ls.flatMap visible).Sublist (visible (wrapLines w pfx lw result cur ls)) := by
  intro ls
  induction ls with
  | nil => intro result cur; simp [wrapLines]
  | cons l rest ih =>
    intro result cur
    have hsep : visible (if result = [] then [] else ['\n']) = [] := by split <;> decide
    rw [wrapLines]
    split
    · refine List.Sublist.trans ?_ (ih _ _)
      rw [List.flatMap_cons, ← List.append_assoc]
      apply List.Sublist.append _ (List.Sublist.refl _)
      rw [visible_append, visible_append, visible_append, hsep, visible_trim, List.append_nil]
      exact List.Sublist.append (List.sublist_append_left _ _) (List.Sublist.refl _)
    · rw [visible_append, visible_append, hsep, List.append_nil, List.flatMap_cons]
      apply List.Sublist.append (List.Sublist.refl _)
      have := wrapSingle_sub w (mergeLines (trim l) rest) cur pfx lw
      rw [VisIn, visible_merge, visible_trim] at this
      exact this

theorem wrapSegment_sub (w : List Char → Nat) (text fp pfx : List Char) (lw : Nat) :
    VisIn text (wrapSegment w text fp pfx lw) := by
  rw [wrapSegment]
  split
  · exact wrapSingle_sub w text fp pfx lw
  · have := wrapLines_sub w pfx lw (splitOn nul text) [] fp
    rw [VisIn, ← visible_splitOn isSep_nul text]
    simpa [visible, nul] using this

theorem wrapText_sub (w : List Char → Nat) (text pfx : List Char) (lw : Nat) :
    VisIn text (wrapText w text pfx lw) := by
  rw [VisIn, wrapText_eq, visible_join_hard, List.flatMap_map, ← visible_splitOn isSep_nl text]
  exact flatMap_sub fun s _ => wrapSegment_sub w s pfx pfx lw

theorem wrapTextFirstLine_sub (w : List Char → Nat) (text fp pfx : List Char) (lw : Nat) :
    VisIn text (wrapTextFirstLine w text fp pfx lw) := by
  rw [wrapTextFirstLine]
  split
  · next h => exact absurd h (splitOn_ne_nil _ _)
  · exact wrapSegment_sub w text fp pfx lw
  · next s rest _ h =>
    rw [VisIn, visible_append, ← visible_splitOn isSep_nl text, h, List.flatMap_cons]
    refine List.Sublist.append (wrapSegment_sub w s fp pfx lw) ?_
    rw [show visible (rest.flatMap fun s => [' ', ' ', '\n'] ++ pfx ++ wrapSegment w s [] pfx lw) =
      rest.flatMap fun s => visible ([' ', ' ', '\n'] ++ pfx ++ wrapSegment w s [] pfx lw) from ?_]
    · exact flatMap_sub fun s _ => (wrapSegment_sub w s [] pfx lw).left _
    · clear h
      rename_i hne
      clear hne
      induction rest with
      | nil => rfl
      | cons a r ih => rw [List.flatMap_cons, visible_append, ih, List.flatMap_cons]


/-! ### Pieces of blocks -/

theorem within_flatMap {α : Type} {f g : α → List Char} {l : List α} (h : ∀ x ∈ l, VisIn (f x) (g x)) :
    VisIn (l.flatMap f) (l.flatMap g) := by
  induction l with
  | nil => exact .refl _
  | cons a l ih =>
    rw [List.flatMap_cons, List.flatMap_cons]
    exact (h a (by simp)).append (ih fun x hx => h x (by simp [hx]))

theorem visible_stripCR (s : List Char) : visible (stripCR s) = visible s := by
  rw [stripCR]
  split
  · rename_i h
    obtain ⟨t, rfl⟩ := List.getLast?_eq_some_iff.mp h
    rw [List.dropLast_concat, visible_append, visible_ws (t := ['\r']) (by decide), List.append_nil]
  · rfl

theorem visible_linesGo : ∀ (s acc : List Char),
    (linesGo acc s).flatMap visible = visible (acc.reverse ++ s)
  | [], acc => by
    rw [linesGo]
    split
    · rename_i h; simp [h, visible]
    · simp
  | c :: cs, acc => by
    rw [linesGo]
    split
    · rename_i h
      subst h
      rw [List.flatMap_cons, visible_stripCR, visible_linesGo cs [], visible_append acc.reverse,
        show ('\n' :: cs) = ['\n'] ++ cs from rfl, visible_append ['\n'], visible_ws (t := ['\n']) (by decide)]
      rfl
    · rw [visible_linesGo cs (c :: acc)]
      simp

theorem within_lines (s : List Char) (f : List Char → List Char) (h : ∀ l, VisIn l (f l)) :
    VisIn s ((lines s).flatMap f) := by
  have e : visible s = visible ((lines s).flatMap id) := by
    rw [show ((lines s).flatMap id) = (lines s).flatten by simp [List.flatMap_id'], visible_flatten, lines,
      visible_linesGo]
    rfl
  exact (within_of_visible e).trans (within_flatMap fun l _ => h l)

theorem within_codeBlockText (cx : Cx) (q : Bool) (info content : List Char) :
    VisIn content (codeBlockText cx q info content) := by
  rw [codeBlockText]
  refine VisIn.right (.right (.right (.left ?_ _) _) _) _
  exact within_lines _ _ fun l => ((VisIn.refl l).left _).right _

theorem within_codeLineIndented (q : Bool) (ind l : List Char) : VisIn l (codeLineIndented q ind l) := by
  rw [codeLineIndented]
  refine VisIn.right (.left ?_ _) _
  split
  · rename_i h; rw [h]; exact .refl _
  · exact (VisIn.refl l).left _

theorem within_codeBlockIndentedText (cx : Cx) (q : Bool) (info content ind : List Char) :
    VisIn content (codeBlockIndentedText cx q info content ind) := by
  rw [codeBlockIndentedText]
  refine VisIn.right (.right (.right (.right (.left ?_ _) _) _) _) _
  exact within_lines _ _ fun l => within_codeLineIndented _ _ _

theorem within_codeBlockWithIndentText (cx : Cx) (info content ind : List Char) :
    VisIn content (codeBlockWithIndentText cx info content ind) := by
  rw [codeBlockWithIndentText]
  refine VisIn.right (.right (.right (.right (.left ?_ _) _) _) _) _
  exact within_lines _ _ fun l => within_codeLineIndented _ _ _

theorem escapeTableCell_sub : ∀ s : List Char, s.Sublist (escapeTableCell s)
  | [] => .refl _
  | [c] => by
    rw [escapeTableCell]
    split
    · rename_i h; rw [h]; exact .cons _ (.refl _)
    · exact .refl _
  | c :: d :: rest => by
    rw [escapeTableCell]
    split
    · exact .cons_cons _ (.cons_cons _ (escapeTableCell_sub rest))
    · split
      · rename_i h; rw [h]; exact .cons _ (.cons_cons _ (escapeTableCell_sub (d :: rest)))
      · exact .cons_cons _ (escapeTableCell_sub (d :: rest))

theorem within_escapeTableCell (s : List Char) : VisIn s (escapeTableCell s) :=
  (escapeTableCell_sub s).filter _

theorem within_formatCell (w : List Char → Nat) (c : List Char) (n : Nat) (a : Align) : VisIn c (formatCell w c n a) := by
  unfold formatCell
  simp only []
  split
  · exact (VisIn.refl c).left _
  · exact ((VisIn.refl c).left _).right _
  · exact (VisIn.refl c).right _

theorem within_mapIdx {α : Type} (f : α → List Char) (g : Nat → α → List Char) (l : List α)
    (h : ∀ i, ∀ x ∈ l, VisIn (f x) (g i x)) : VisIn (l.flatMap f) (l.mapIdx g).flatten := by
  induction l generalizing g with
  | nil => exact .refl _
  | cons a l ih =>
    rw [List.mapIdx_cons, List.flatMap_cons, List.flatten_cons]
    exact (h 0 a (by simp)).append (ih _ fun i x hx => h (i + 1) x (by simp [hx]))

theorem within_rowText (w : List Char → Nat) (ws : List Nat) (as : List Align) (cells : List (List Char)) :
    VisIn cells.flatten (rowText w ws as cells) := by
  rw [rowText]
  refine VisIn.right (.left ?_ _) _
  have := within_mapIdx id (fun i cell =>
    [' '] ++ formatCell w cell (ws.getD i 3) (as.getD i .none) ++ [' ', '|']) cells
    (fun i x _ => ((within_formatCell w x _ _).left _).right _)
  simpa using this

theorem within_tableText (w : List Char → Nat) (q : Bool) (as : List Align) (rows : List (List (List Char))) :
    VisIn (rows.flatMap List.flatten) (tableText w q as rows) := by
  unfold tableText
  cases rows with
  | nil => exact .nil _
  | cons r rs =>
    rw [List.flatMap_cons]
    exact VisIn.append (((within_rowText _ _ _ _).left _).right _ |>.right _)
      (within_flatMap fun r _ => (within_rowText _ _ _ _).left _)

/-! ### What a serializer adds -/

/-- `b` comes from `a` by writing something that has the text `t` in it. -/
def Writes (t : List Char) (a b : St) : Prop := ∃ s, b.output = a.output ++ s ∧ VisIn t s

theorem Writes.of_prefix {a b : St} (h : a.output <+: b.output) : Writes [] a b := by
  obtain ⟨s, hs⟩ := h
  exact ⟨s, hs.symm, .nil _⟩

theorem Writes.refl (a : St) : Writes [] a a := ⟨[], by simp, .nil _⟩

theorem Writes.trans {t u : List Char} {a b c : St} (h : Writes t a b) (h' : Writes u b c) : Writes (t ++ u) a c := by
  obtain ⟨s, hs, hw⟩ := h
  obtain ⟨s', hs', hw'⟩ := h'
  exact ⟨s ++ s', by rw [hs', hs, List.append_assoc], hw.append hw'⟩

theorem Writes.same {t : List Char} {a a' b b' : St} (h : Writes t a b) (ha : a'.output = a.output) (hb : b'.output = b.output) :
    Writes t a' b' := by
  obtain ⟨s, hs, hw⟩ := h
  exact ⟨s, by rw [hb, ha, hs], hw⟩

theorem writes_push {t s : List Char} (h : VisIn t s) (a : St) : Writes t a (a.push s) := ⟨s, rfl, h⟩

theorem Writes.push {t : List Char} {a b : St} (h : Writes t a b) (s : List Char) : Writes t a (b.push s) := by
  have := h.trans (writes_push (VisIn.nil s) b)
  rwa [List.append_nil] at this

theorem Writes.after {t : List Char} {a b c : St} (h : a.output <+: b.output) (h' : Writes t b c) : Writes t a c :=
  (Writes.of_prefix h).trans h'

theorem Writes.after_push {t s : List Char} {a b : St} (h : Writes t (a.push s) b) : Writes t a b :=
  .after (List.prefix_append _ _) h

theorem addReferences_output (rs : List Ref) (st : St) : (addReferences st rs).output = st.output :=
  (addReferences_fields rs st).1

/-! ### Kids -/

/-- The text of an abbreviation definition is that of its source, which does not count. -/
def parText (cx : Cx) (p : Pos) (cs : List Node) : List Char :=
  if (abbreviationDef cx p).isSome then [] else (collectInlines cx cs).1

def headText (cx : Cx) (cs : List Node) : List Char :=
  if cx.opts.headingSentenceCase then [] else (collectTexts cx cs).1

def cellText (cx : Cx) (cs : List Node) : List Char := (collectInlines cx cs).1

def txt (cx : Cx) : Node → List Char := blockText (parText cx) (headText cx) (cellText cx)

def txts (cx : Cx) : List Node → List Char := blockTexts (parText cx) (headText cx) (cellText cx)

def kidTxts (cx : Cx) (kids : List Kid) : List Char := txts cx (kids.map (·.node))

theorem txts_cons (cx : Cx) (n : Node) (ns : List Node) : txts cx (n :: ns) = txt cx n ++ txts cx ns := by
  rw [txts, blockTexts]; rfl

theorem kidTxts_cons (cx : Cx) (k : Kid) (ks : List Kid) : kidTxts cx (k :: ks) = txt cx k.node ++ kidTxts cx ks := by
  rw [kidTxts, List.map_cons, txts_cons]; rfl

theorem kidTxts_nil (cx : Cx) : kidTxts cx [] = [] := rfl

def KidWrites (cx : Cx) (k : Kid) : Prop := ∀ st, Writes (txt cx k.node) st (k.act st)

theorem runKids_writes {cx : Cx} {kids : List Kid} (h : ∀ k ∈ kids, KidWrites cx k) :
    ∀ st, Writes (kidTxts cx kids) st (runKids kids st) := by
  induction kids with
  | nil => exact Writes.refl
  | cons k ks ih =>
    intro st
    rw [kidTxts_cons]
    exact (h k (by simp) st).trans (ih (fun k hk => h k (by simp [hk])) (k.act st))

/-! ### The block serializers -/

theorem serHeading_writes (cx : Cx) (level : Nat) (cs : List Node) (st : St) :
    Writes (headText cx cs) st (serHeading cx level cs st) := by
  rw [serHeading, headText]
  refine Writes.same (writes_push ?_ (addReferences st (collectTexts cx cs).2)) (addReferences_output _ _).symm rfl
  split
  · exact .nil _
  · rw [headingText]
    split
    · exact (((VisIn.refl _).right _).right _).right _
    · split
      · exact (((VisIn.refl _).right _).right _).right _
      · exact ((VisIn.refl _).left _).right _

theorem serParagraph_writes (cx : Cx) (p : Pos) (cs : List Node) (st : St) :
    Writes (parText cx p cs) st (serParagraph cx p cs st) := by
  rw [serParagraph, parText]
  cases abbreviationDef cx p with
  | some src => exact writes_push (.nil _) st
  | none =>
    simp only [Option.isSome_none, Bool.false_eq_true, if_false]
    have hr := (addReferences_output (collectInlines cx cs).2 st).symm
    split
    · exact Writes.same (writes_push ((within_of_visible (visible_trim _).symm).trans (wrapTextFirstLine_sub _ _ _ _ _)) _) hr rfl
    · exact Writes.same (writes_push ((wrapText_sub _ _ _ _).right _) _) hr rfl

theorem addCodeWarning_output (st : St) (w : Option (List Char)) : (addCodeWarning st w).output = st.output := by
  cases w <;> rfl

/-- No formatter changes code. -/
def NoFormatter (cx : Cx) : Prop := cx.opts.codeFormatters = [] ∧ cx.callback = none

theorem serCodeBlock_writes {cx : Cx} (hc : NoFormatter cx) (info code : List Char) (st : St) :
    Writes code st (serCodeBlock cx info code st) := by
  refine ⟨_, serCodeBlock_output cx info code st, ?_⟩
  rw [codeContent_nil hc]
  exact within_codeBlockText _ _ _ _

theorem serCodeBlockIndented_writes {cx : Cx} (hc : NoFormatter cx) (info code ind : List Char) (st : St) :
    Writes code st (serCodeBlockIndented cx info code ind st) := by
  refine ⟨_, serCodeBlockIndented_output cx info code ind st, ?_⟩
  rw [codeContent_nil hc]
  exact within_codeBlockIndentedText _ _ _ _ _

theorem serCodeBlockWithIndent_writes {cx : Cx} (hc : NoFormatter cx) (info code ind : List Char) (st : St) :
    Writes code st (serCodeBlockWithIndent cx info code ind st) := by
  refine ⟨_, serCodeBlockWithIndent_output cx info code ind st, ?_⟩
  rw [codeContent_nil hc]
  exact within_codeBlockWithIndentText _ _ _ _

theorem serTable_writes (cx : Cx) (p q : Pos) (aligns : List Align) (rows : List Node) (st : St) :
    Writes (txt cx (.mk (.table aligns) q rows)) st (serTable cx p aligns rows st) := by
  rw [serTable, txt, blockText]
  split
  · rename_i h
    rw [List.isEmpty_iff] at h
    subst h
    exact Writes.refl _
  · simp only []
    refine Writes.same (writes_push (VisIn.trans ?_ (within_tableText _ _ _ _)) _) ?_ rfl
    · rw [List.flatMap_assoc, List.map_map, List.flatMap_map]
      refine within_flatMap fun r _ => ?_
      simp only [Function.comp, List.map_map]
      rw [← List.flatMap_def]
      exact within_flatMap fun c _ => within_escapeTableCell _
    · rw [addReferences_output]

theorem serList_writes {cx : Cx} {kids : List Kid} (h : ∀ k ∈ kids, KidWrites cx k) (type : ListType)
    (tight : Bool) (st : St) : Writes (kidTxts cx kids) st (serList type tight kids st) := by
  rw [serList]
  exact (runKids_writes h { st with
    listType := some type
    listTight := tight
    listItemIndex := 0
    listDepth := st.listDepth + 1
    orderedListMaxItems := if type = .ordered then (kids.filter fun k => k.node.isItem).length
      else st.orderedListMaxItems }).same rfl rfl

theorem serItemChild_writes {cx : Cx} (hc : NoFormatter cx) {k : Kid} (h : KidWrites cx k)
    (indent : List Char) (prev : Option Node) (st : St) :
    Writes (txt cx k.node) st (serItemChild cx indent prev k st) := by
  have hp : ∀ s, Writes (txt cx k.node) st (k.act (st.push s)) := fun s => (h (st.push s)).after_push
  have h0 := h st
  obtain ⟨⟨v, p, cs⟩, act⟩ := k
  unfold serItemChild
  cases v <;> simp only [Node.value] <;> try first | exact hp _ | exact h0
  case codeBlock info literal => exact (serCodeBlockIndented_writes hc _ _ _ _).after_push
  case paragraph =>
    cases prev with
    | none => exact h0
    | some p => exact hp _

theorem serItemChildren_writes {cx : Cx} (hc : NoFormatter cx) (indent : List Char) {kids : List Kid}
    (h : ∀ k ∈ kids, KidWrites cx k) : ∀ (prev : Option Node) (st : St),
      Writes (kidTxts cx kids) st (serItemChildren cx indent prev kids st) := by
  induction kids with
  | nil => exact fun _ st => Writes.refl st
  | cons k ks ih =>
    intro prev st
    rw [kidTxts_cons, serItemChildren]
    exact (serItemChild_writes hc (h k (by simp)) _ _ _).trans (ih (fun k hk => h k (by simp [hk])) _ _)

theorem serItem_writes {cx : Cx} (hc : NoFormatter cx) {kids : List Kid} (h : ∀ k ∈ kids, KidWrites cx k)
    (task : Option (Option Char)) (st : St) : Writes (kidTxts cx kids) st (serItem cx task kids st) := by
  rw [serItem]
  generalize hs : ({ st with listItemIndex := st.listItemIndex + 1 } : St) = s1
  have h1 := serItemChildren_writes hc (itemIndent cx (s1.push (itemLead cx task s1))) h none
    { s1.push (itemLead cx task s1) with
      listItemIndent := itemIndent cx (s1.push (itemLead cx task s1)) }
  have h2 : Writes (kidTxts cx kids) st
      { serItemChildren cx (itemIndent cx (s1.push (itemLead cx task s1))) none kids
        { s1.push (itemLead cx task s1) with
          listItemIndent := itemIndent cx (s1.push (itemLead cx task s1)) } with
        listItemIndent := (s1.push (itemLead cx task s1)).listItemIndent } := by
    have h3 : Writes (kidTxts cx kids) (st.push (itemLead cx task s1)) _ := h1.same (by rw [← hs]; rfl) rfl
    exact h3.after_push
  split
  · exact h2
  · exact h2.push _

theorem serQuoteChildren_writes {cx : Cx} (sep : List Char) {kids : List Kid}
    (h : ∀ k ∈ kids, KidWrites cx k) :
    ∀ st : St, Writes (kidTxts cx kids) st (serQuoteChildren sep kids st) := by
  induction kids with
  | nil => exact fun st => Writes.refl st
  | cons k ks ih =>
    intro st
    have h1 := h k (by simp) st
    cases ks with
    | nil =>
      rw [serQuoteChildren, kidTxts_cons, kidTxts_nil, List.append_nil]
      exact h1
    | cons k' ks =>
      rw [serQuoteChildren.eq_3 _ _ _ _ (by simp), kidTxts_cons]
      exact (h1.push sep).trans (ih (fun k hk => h k (by simp [hk])) _)

theorem serBlockQuote_writes {cx : Cx} {kids : List Kid} (h : ∀ k ∈ kids, KidWrites cx k)
    (st : St) : Writes (kidTxts cx kids) st (serBlockQuote kids st) :=
  (serQuoteChildren_writes (st.listItemIndent ++ st.blockquotePrefix ++ ['>', '\n']) h (enterQuote st)).same rfl rfl

theorem serAlert_writes {cx : Cx} {kids : List Kid} (h : ∀ k ∈ kids, KidWrites cx k)
    (type : AlertType) (p : Pos) (st : St) : Writes (kidTxts cx kids) st (serAlert type p kids st) := by
  rw [serAlert]
  split
  · exact (serBlockQuote_writes h _).after_push.after_push
  · exact (serBlockQuote_writes h _).after_push

theorem serDetailsParagraph_writes (cx : Cx) (bq lead : List Char) (p : Pos) (cs : List Node) (st : St) :
    Writes (txt cx (.mk .paragraph p cs)) st (serDetailsParagraph cx bq lead cs st) := by
  rw [serDetailsParagraph, txt, blockText, parText]
  refine Writes.same (writes_push ?_ _) (addReferences_output (collectInlines cx cs).2 st).symm rfl
  split
  · exact .nil _
  · exact ((((within_of_visible (visible_trim _).symm).trans (wrapTextFirstLine_sub _ _ _ _ _)).left _).right _)

theorem withIndent4_writes {cx : Cx} {k : Kid} (h : KidWrites cx k) (st : St) :
    Writes (txt cx k.node) st (withIndent4 k st) :=
  (h { st with listItemIndent := spaces 4 }).same rfl rfl

theorem serDetailsChild_writes {cx : Cx} (hc : NoFormatter cx) {k : Kid} (h : KidWrites cx k)
    (bq : List Char) (first : Bool) (st : St) :
    Writes (txt cx k.node) st (serDetailsChild cx bq first k st) := by
  rw [serDetailsChild]
  split
  · have hp : ∀ s, Writes (txt cx k.node) st (k.act (st.push s)) := fun s => (h (st.push s)).after_push
    have hw : ∀ s, Writes (txt cx k.node) st (withIndent4 k (st.push s)) := fun s =>
      (withIndent4_writes h (st.push s)).after_push
    have hl : ∀ s, Writes (txt cx k.node) st { k.act { st.push s with descriptionDetailsFirstList := true } with
        descriptionDetailsFirstList := false } := fun s =>
      Writes.after_push (s := s) ((h { st.push s with descriptionDetailsFirstList := true }).same rfl rfl)
    obtain ⟨⟨v, p, cs⟩, act⟩ := k
    cases v <;> simp only [Node.value] <;> try first | exact hp _ | exact hw _ | exact hl _
    case paragraph => exact serDetailsParagraph_writes cx _ _ p cs st
    case codeBlock info literal => exact (serCodeBlockWithIndent_writes hc _ _ _ _).after_push
  · refine Writes.after_push (s := ['\n']) ?_
    generalize st.push ['\n'] = st
    have hp : ∀ s, Writes (txt cx k.node) st (k.act (st.push s)) := fun s => (h (st.push s)).after_push
    have hw := withIndent4_writes h st
    have h0 := h st
    obtain ⟨⟨v, p, cs⟩, act⟩ := k
    cases v <;> simp only [Node.value] <;> try first | exact h0 | exact hp _ | exact hw
    case paragraph => exact serDetailsParagraph_writes cx _ _ p cs st
    case codeBlock info literal => exact (serCodeBlockWithIndent_writes hc _ _ _ _).after_push

theorem serDetailsFold_writes {cx : Cx} (hc : NoFormatter cx) (bq : List Char) {kids : List Kid}
    (h : ∀ k ∈ kids, KidWrites cx k) : ∀ st : St, Writes (kidTxts cx kids) st
      (kids.foldl (fun st k => serDetailsChild cx bq false k st) st) := by
  induction kids with
  | nil => exact Writes.refl
  | cons k ks ih =>
    intro st
    rw [kidTxts_cons, List.foldl_cons]
    exact (serDetailsChild_writes hc (h k (by simp)) _ _ _).trans (ih (fun k hk => h k (by simp [hk])) _)

theorem serDetails_writes {cx : Cx} (hc : NoFormatter cx) {kids : List Kid} (h : ∀ k ∈ kids, KidWrites cx k)
    (st : St) : Writes (kidTxts cx kids) st (serDetails cx kids st) := by
  unfold serDetails
  have key : ∀ x : St, Writes (kidTxts cx kids) { st with inDescriptionDetails := true } x →
      Writes (kidTxts cx kids) st { x with inDescriptionDetails := st.inDescriptionDetails } :=
    fun x h1 => h1.same rfl rfl
  apply key
  cases kids with
  | nil => exact Writes.refl _
  | cons k ks =>
    rw [kidTxts_cons]
    exact (serDetailsChild_writes hc (h k (by simp)) _ _ _).trans
      (serDetailsFold_writes hc _ (fun k hk => h k (by simp [hk])) _)

theorem serDescriptionList_writes {cx : Cx} {kids : List Kid} (h : ∀ k ∈ kids, KidWrites cx k) :
    ∀ st : St, Writes (kidTxts cx kids) st (serDescriptionList kids st) := by
  induction kids with
  | nil => exact fun st => Writes.refl st
  | cons k ks ih =>
    intro st
    have h1 := h k (by simp) st
    cases ks with
    | nil =>
      rw [serDescriptionList, kidTxts_cons, kidTxts_nil, List.append_nil]
      exact h1
    | cons k' ks =>
      rw [serDescriptionList.eq_3 _ _ _ (by simp), kidTxts_cons]
      exact (h1.push _).trans (ih (fun k hk => h k (by simp [hk])) _)

/-! ### All nodes -/

theorem dispatch_writes {cx : Cx} (hc : NoFormatter cx) {kids : List Kid} (h : ∀ k ∈ kids, KidWrites cx k)
    (v : NodeValue) (p : Pos) (nb : Bool) (st : St) (hv : v ≠ .document)
    (hg : st.output <+: (dispatch cx v p kids nb st).output) :
    Writes (txt cx (.mk v p (kids.map (·.node)))) st (dispatch cx v p kids nb st) := by
  have hr := runKids_writes h st
  cases v
  case document => exact absurd rfl hv
  case table => exact serTable_writes _ _ _ _ _ _
  all_goals simp only [txt, blockText]
  case list => exact serList_writes h _ _ _
  case item => exact serItem_writes hc h _ st
  case taskItem s => exact serItem_writes hc h _ st
  case heading => exact serHeading_writes _ _ _ _
  case paragraph => exact serParagraph_writes _ _ _ _
  case codeBlock info literal => exact serCodeBlock_writes hc _ _ _
  case htmlBlock => exact writes_push (.refl _) _
  case frontMatter => exact writes_push ((within_of_visible (visible_trim _).symm).right _) _
  case blockQuote => exact serBlockQuote_writes h _
  case alert => exact serAlert_writes h _ _ _
  case descriptionList => exact serDescriptionList_writes h _
  case descriptionDetails => exact serDetails_writes hc h _
  all_goals first | exact hr | exact .of_prefix hg

mutual
theorem ser_writes {cx : Cx} (hc : NoFormatter cx) : ∀ (n : Node) (nb : Bool), wellPlaced n = true →
    KidWrites cx ⟨n, ser cx n nb⟩
  | .mk v p cs, nb, h => by
    intro st
    have ho := (ser_ok cx (.mk v p cs) nb h st).out
    rw [wellPlaced, Bool.and_eq_true, Bool.and_eq_true, decide_eq_true_eq, Bool.or_eq_true] at h
    obtain ⟨⟨hv, _⟩, hcs⟩ := h
    have hk := serKids_writes hc cs hcs
    have ho' : st.output <+: (dispatch cx v p (serKids cx cs) nb st).output := by
      rw [kidStart] at ho
      split at ho
      · exact ho
      · exact ho
    have := dispatch_writes hc hk v p nb st hv ho'
    rw [serKids_nodes] at this
    simp only [ser]
    exact this

theorem serKids_writes {cx : Cx} (hc : NoFormatter cx) : ∀ (cs : List Node), wellPlacedList cs = true →
    ∀ k ∈ serKids cx cs, KidWrites cx k
  | [], _, k, hk => by simp [serKids] at hk
  | n :: ns, h, k, hk => by
    rw [wellPlacedList, Bool.and_eq_true] at h
    rw [serKids] at hk
    rcases List.mem_cons.mp hk with rfl | hk
    · exact ser_writes hc n _ h.1
    · exact serKids_writes hc ns h.2 k hk
end

/-! ### The document -/

/-- Does the directive turn formatting off? -/
def turnsOff : Directive → Bool
  | .disableFile => true
  | .disableNextLine => true
  | .disableNextSection => true
  | .disable => true
  | _ => false

theorem txt_html (cx : Cx) (n : Node) (h : n.html?.isSome = true) : txt cx n = n.html?.getD [] := by
  obtain ⟨v, p, cs⟩ := n
  cases v <;> simp_all [Node.html?, Node.value, txt, blockText]

theorem txt_fn (cx : Cx) (n : Node) (h : n.isFootnoteDefinition = true) : txt cx n = [] := by
  obtain ⟨v, p, cs⟩ := n
  cases v <;> simp_all [Node.isFootnoteDefinition, Node.value, txt, blockText]

theorem directive_html {n : Node} {d : Directive} (h : n.directive = some d) : n.html?.isSome = true := by
  obtain ⟨v, p, cs⟩ := n
  cases v <;> simp_all [Node.directive, Node.html?, Node.value]

theorem serTopChild_writes {cx : Cx} {k : Kid} (ha : KidWrites cx k) (h : KidOk cx k) (hb : isItemLike k.node = false)
    (hd : ∀ d, k.node.directive = some d → turnsOff d = false)
    (prev : Option Node) (tr : Bool) (st : St) (hs : st.skipMode = .none) :
    (tr = false → Writes (txt cx k.node) st (serTopChild cx prev tr k st).1) ∧
    (serTopChild cx prev tr k st).1.skipMode = .none ∧ (serTopChild cx prev tr k st).2 = false := by
  rw [serTopChild]
  by_cases h1 : (tr && k.node.html?.isSome) = true
  · rw [if_pos h1]
    refine ⟨fun ht => ?_, hs, rfl⟩
    rw [ht] at h1
    simp at h1
  · rw [if_neg h1]
    by_cases h2 : k.node.isFootnoteDefinition = true
    · rw [if_pos h2]
      refine ⟨fun _ => ?_, hs, rfl⟩
      rw [txt_fn cx _ h2]
      exact Writes.refl _
    · rw [if_neg h2]
      cases h3 : k.node.directive with
      | some d =>
        have ht := hd d h3
        have hx := txt_html cx _ (directive_html h3)
        rw [hx]
        cases d with
        | disableFile => simp [turnsOff] at ht
        | disableNextLine => simp [turnsOff] at ht
        | disableNextSection => simp [turnsOff] at ht
        | disable => simp [turnsOff] at ht
        | enable => exact ⟨fun _ => (writes_push ((VisIn.refl _).left _) st).same rfl rfl, rfl, rfl⟩
        | properNouns ns => exact ⟨fun _ => (writes_push ((VisIn.refl _).left _) st).same rfl rfl, hs, rfl⟩
        | commonNouns ns => exact ⟨fun _ => (writes_push ((VisIn.refl _).left _) st).same rfl rfl, hs, rfl⟩
      | none =>
        have key : ∀ s0 : St, st.output <+: s0.output → s0.skipMode = .none → ∀ g,
            Writes (txt cx k.node) st (serTopBlock cx k (s0.push g)) ∧ (serTopBlock cx k (s0.push g)).skipMode = .none := by
          intro s0 hp hsk g
          rw [serTopBlock, if_pos (show (s0.push g).skipMode = .none from hsk)]
          exact ⟨((ha (s0.push g)).after_push).after hp, ((h.act hb (s0.push g)).core.skip).trans hsk⟩
        simp only []
        split
        · have := key (flushAll cx (some k.node.pos.startLine) st) (flushAll_output cx _ st)
            ((flushAll_rest cx _ st).1.trans hs) (blockGap prev k.node)
          exact ⟨fun _ => this.1, this.2, trivial⟩
        · have := key st List.prefix_rfl hs (blockGap prev k.node)
          exact ⟨fun _ => this.1, this.2, trivial⟩

theorem serTopLoop_writes {cx : Cx} : ∀ {kids : List Kid} (_ : ∀ k ∈ kids, KidWrites cx k) (_ : ∀ k ∈ kids, KidOk cx k)
    (_ : Blocks kids) (_ : ∀ k ∈ kids, ∀ d, k.node.directive = some d → turnsOff d = false)
    (prev : Option Node) (m : Nat) (st : St) (_ : st.skipMode = .none),
    Writes (kidTxts cx (kids.take m)) st (serTopLoop cx prev m kids st).1 ∧ (serTopLoop cx prev m kids st).2 = false
  | [], _, _, _, _, _, m, st, _ => by
    rw [serTopLoop, List.take_nil]
    exact ⟨Writes.refl st, rfl⟩
  | k :: ks, ha, h, hb, hd, prev, m, st, hs => by
    obtain ⟨h1, h2, h3⟩ := serTopChild_writes (ha k (by simp)) (h k (by simp)) (hb k (by simp)) (hd k (by simp)) prev
      (m == 0) st hs
    have hg := serTopChild_grows (h k (by simp)) (hb k (by simp)) prev (m == 0) st
    obtain ⟨h4, h5⟩ := serTopLoop_writes (kids := ks) (fun k hk => ha k (by simp [hk])) (fun k hk => h k (by simp [hk]))
      (fun k hk => hb k (by simp [hk])) (fun k hk => hd k (by simp [hk])) (some k.node) (m - 1) _ h2
    rw [serTopLoop]
    simp only [h3, Bool.false_eq_true, if_false]
    refine ⟨?_, h5⟩
    cases m with
    | zero =>
      rw [List.take_zero, kidTxts_nil]
      have := (Writes.of_prefix hg.out).trans h4
      simpa [kidTxts_nil] using this
    | succ m =>
      rw [List.take_succ_cons, kidTxts_cons]
      exact (h1 rfl).trans h4

theorem trailingCount_all : ∀ l : List Node, ∀ n ∈ l.take (trailingCount l),
    n.isPlainHtml = true ∨ n.isFootnoteDefinition = true
  | [], n, h => by simp [trailingCount] at h
  | a :: l, n, h => by
    rw [trailingCount] at h
    split at h
    · rename_i hp
      rw [List.take_succ_cons] at h
      rcases List.mem_cons.mp h with rfl | h
      · exact .inl hp
      · exact trailingCount_all l n h
    · split at h
      · rename_i hf
        split at h
        · simp at h
        · rw [List.take_succ_cons] at h
          rcases List.mem_cons.mp h with rfl | h
          · exact .inr hf
          · exact trailingCount_all l n h
      · simp at h

theorem trailing_all (cs : List Node) : ∀ n ∈ cs.drop (trailingStart cs),
    n.isPlainHtml = true ∨ n.isFootnoteDefinition = true := by
  intro n hn
  apply trailingCount_all cs.reverse n
  rw [List.take_reverse, List.mem_reverse]
  exact hn

theorem outputTrailing_writes (cx : Cx) (ns : List Node)
    (h : ∀ n ∈ ns, n.isPlainHtml = true ∨ n.isFootnoteDefinition = true) (st : St) :
    Writes (txts cx ns) st (outputTrailing ns st) := by
  have e : txts cx ns = (ns.filterMap Node.html?).flatten := by
    clear st
    induction ns with
    | nil => rfl
    | cons n ns ih =>
      rw [txts_cons, ih fun m hm => h m (by simp [hm])]
      rcases h n (by simp) with hn | hn
      · rw [Node.isPlainHtml, Bool.and_eq_true] at hn
        rw [txt_html cx n hn.1]
        obtain ⟨l, hl⟩ := Option.isSome_iff_exists.mp hn.1
        rw [List.filterMap_cons, hl]
        rfl
      · rw [txt_fn cx n hn, List.filterMap_cons,
          show n.html? = none by
            obtain ⟨v, p, cs⟩ := n
            cases v <;> simp_all [Node.isFootnoteDefinition, Node.html?, Node.value]]
        rfl
  rw [outputTrailing, e]
  cases ns.filterMap Node.html? with
  | nil => exact Writes.refl _
  | cons l ls =>
    simp only []
    rw [ensureBlankLine_eq]
    exact (writes_push (.refl _) _).after_push

theorem formatDoc_writes {cx : Cx} (hc : NoFormatter cx) {p : Pos} {cs : List Node} (hw : wellPlacedDoc cs = true)
    (hd : ∀ n ∈ cs, ∀ d, n.directive = some d → turnsOff d = false) :
    VisIn (txt cx (.mk .document p cs)) (formatDoc cx (.mk .document p cs)).output := by
  have hwl : wellPlacedList cs = true := by
    rw [wellPlacedDoc, Bool.and_eq_true] at hw
    first | exact hw.2 | exact hw.1
  have ha := serKids_writes hc cs hwl
  have h := serKids_ok cx cs hwl
  have hnodes := serKids_nodes cx cs
  have hb : Blocks (serKids cx cs) := by
    intro k hk
    rw [wellPlacedDoc, Bool.and_eq_true] at hw
    have hm : k.node ∈ (serKids cx cs).map (·.node) := List.mem_map.mpr ⟨k, hk, rfl⟩
    rw [hnodes] at hm
    simpa using List.all_eq_true.mp hw.1 _ hm
  have hd' : ∀ k ∈ serKids cx cs, ∀ d, k.node.directive = some d → turnsOff d = false := by
    intro k hk
    apply hd
    rw [← hnodes]
    exact List.mem_map.mpr ⟨k, hk, rfl⟩
  rw [formatDoc, ser, dispatch, serDocument, hnodes]
  generalize hs1 : ({ ({} : St) with warnings := ({} : St).warnings ++ undefinedWarnings cx cs } : St) = s1
  have hv := recordLines_view (footnoteRefLinesList cs) s1
  have hf := runKids_ok (kids := (serKids cx cs).filter fun k => k.node.isFootnoteDefinition) (filter_mem h)
    (fun k hk => hb k (List.mem_filter.mp hk).1) (recordLines (footnoteRefLinesList cs) s1)
  have hsk : (serFootnoteDefinitions (serKids cx cs) (recordLines (footnoteRefLinesList cs) s1)).skipMode = .none := by
    have e1 := hf.core.skip
    have e2 := hv.2.1
    have e3 : s1.skipMode = .none := by rw [← hs1]
    exact (e1.trans e2).trans e3
  obtain ⟨h1, h2⟩ := serTopLoop_writes ha h hb hd' none (trailingStart cs) _ hsk
  rw [if_neg (by rw [h2]; simp)]
  have h3 := (h1.trans (Writes.of_prefix (flushAll_output cx none _))).trans
    (outputTrailing_writes cx (cs.drop (trailingStart cs)) (trailing_all cs) _)
  have h4 : txt cx (.mk .document p cs) =
      kidTxts cx ((serKids cx cs).take (trailingStart cs)) ++ [] ++ txts cx (cs.drop (trailingStart cs)) := by
    rw [kidTxts, List.map_take, hnodes, List.append_nil, txt, blockText]
    have : ∀ a b : List Node, txts cx (a ++ b) = txts cx a ++ txts cx b := by
      intro a b
      induction a with
      | nil => rfl
      | cons x a ih => rw [List.cons_append, txts_cons, txts_cons, ih, List.append_assoc]
    rw [← this, List.take_append_drop]
    rfl
  obtain ⟨s, hs, hin⟩ := h3
  rw [hs, h4]
  exact hin.left _

end Hongdown
