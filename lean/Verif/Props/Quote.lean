import Verif.Lemmas.Quote
import Verif.Props.Lists

/-!
# Block quotes: C49
-/

namespace Hongdown.Props
open Model Spec

theorem noNl_of_ok {o : Options} (h : OptionsOk o) (hs : '\n' ∉ o.thematicBreakStyle)
    (hl : '\n' ∉ o.defaultLanguage) : NoNl o where
  bullet := by rcases h.unorderedMarker with e | e | e <;> rw [e] <;> decide
  odd := by rcases h.oddMarker with e | e <;> rw [e] <;> decide
  even := by rcases h.evenMarker with e | e <;> rw [e] <;> decide
  fence := by rcases h.fenceChar with e | e <;> rw [e] <;> decide
  style := hs
  language := hl

theorem prefixed_split {m t : List Char} (h : Prefixed m t) :
    ((splitOn '\n' t).dropLast.all fun l => m.isPrefixOf l) = true := by
  obtain ⟨ls, rfl, hl⟩ := h
  have := splitOn_unlines (ls := ls) (fun l h => (hl l h).1) []
  rw [List.append_nil] at this
  rw [this, splitOn, List.dropLast_concat, List.all_eq_true]
  intro l h
  exact List.isPrefixOf_iff_prefix.2 (hl l h).2

/-- **C49 (partial).** Full statement: without `QuotableList`. A block quote or an alert outside of
lists writes whole lines, and each of them starts with `>`, if it holds only paragraphs, code,
thematic breaks, tables, tight lists of simple items, and such block quotes. Missing: what the
negations below show, and block quotes in list items and descriptions. -/
theorem c49_lines_partial (cx : Cx) (v : NodeValue) (p : Pos) (cs : List Node) (nb : Bool) (st : St)
    (ho : OptionsOk cx.opts) (hs : '\n' ∉ cx.opts.thematicBreakStyle) (hl : '\n' ∉ cx.opts.defaultLanguage)
    (hv : v = .blockQuote ∨ ∃ type title, v = .alert type title) (hw : wellPlaced (.mk v p cs) = true)
    (hc : QuotableList cx true cs) (hd : st.inDescriptionDetails = false) (hi : st.listItemIndent = [])
    (hp : st.blockquotePrefix = []) :
    ∃ text, (ser cx (.mk v p cs) nb st).output = st.output ++ text ∧ Prefixed ['>'] text := by
  have hno := noNl_of_ok ho hs hl
  have hb : isListValue v = false := by rcases hv with rfl | ⟨_, _, rfl⟩ <;> rfl
  rw [wellPlaced, Bool.and_eq_true, Bool.and_eq_true, hb, Bool.false_or] at hw
  have hbl : Blocks (serKids cx cs) := fun k hk => by
    have hm : k.node ∈ (serKids cx cs).map (·.node) := List.mem_map.mpr ⟨k, hk, rfl⟩
    rw [serKids_nodes] at hm
    simpa using List.all_eq_true.mp hw.1.2 _ hm
  have hk := serKids_quote hno (m := ['>']) (fun _ => rfl) cs hw.2 hc
  rcases hv with rfl | ⟨type, _, rfl⟩
  · exact quote_adds hk hbl st hd hi (by simp [hp]) (by simp [hp])
  · exact alert_adds hk hbl type p st hd hi (by simp [hp]) (by simp [hp])

/-- A quote with a task list, a nested quote, code and a table. -/
def exQuote : List Node :=
  let p : Pos := ⟨1, 1, 1, 1⟩
  [.mk (.list .bullet true) p [.mk (.taskItem (some 'x')) p [exPar [exText "a"],
      .mk (.list .ordered true) p [.mk .item p [exPar [exText "b"]]]]],
   .mk .blockQuote p [exPar [exText "c"], .mk .thematicBreak p []],
   .mk (.codeBlock "rust".toList "x\n\ny\n".toList) p [],
   .mk (.table [.left]) p [.mk .tableRow p [.mk .tableCell p [exText "d"]]]]

example : wellPlaced (.mk .blockQuote ⟨1, 1, 1, 1⟩ exQuote) = true := by decide +kernel
example : QuotableList codeCx true exQuote := by
  have h : ∀ p, NoAbbreviation codeCx p := fun p s e => by simp [extractSource, codeCx] at e
  simp only [exQuote, QuotableList, Quotable, exPar, h, and_true, true_and]
  decide +kernel
example : (ser codeCx (.mk (.alert .note none) ⟨1, 1, 1, 1⟩ exQuote) false {}).output =
    ("> [!NOTE]\n>  -  [x] a\n>     1)  b\n>\n> > c\n> >\n>   " ++
      " - - - - - - - - - - - - - - - - - - - - - - - - - - - - - - - - - - - - -\n>\n" ++
      "> ~~~~ rust\n> x\n>\n> y\n> ~~~~\n>\n> | d   |\n> | :-- |\n").toList := by
  decide +kernel

/-- **C49 (partial).** Full statement: with the blocks of `c49_lines_partial` too, for which it is
false. Inside of `d` block quotes, a block quote with only paragraphs and such block quotes inside
writes whole lines, and each of them starts with one `>` for every quote around it. -/
theorem c49_depth_partial (cx : Cx) (v : NodeValue) (p : Pos) (cs : List Node) (nb : Bool) (st : St) (d : Nat)
    (ho : OptionsOk cx.opts) (hs : '\n' ∉ cx.opts.thematicBreakStyle) (hl : '\n' ∉ cx.opts.defaultLanguage)
    (hv : v = .blockQuote ∨ ∃ type title, v = .alert type title) (hw : wellPlaced (.mk v p cs) = true)
    (hc : QuotableList cx false cs) (hd : st.inDescriptionDetails = false) (hi : st.listItemIndent = [])
    (hp : st.blockquotePrefix = (List.replicate d ['>', ' ']).flatten) :
    ∃ text, (ser cx (.mk v p cs) nb st).output = st.output ++ text ∧ Prefixed (quoteMark d) text := by
  have hno := noNl_of_ok ho hs hl
  have hb : isListValue v = false := by rcases hv with rfl | ⟨_, _, rfl⟩ <;> rfl
  rw [wellPlaced, Bool.and_eq_true, Bool.and_eq_true, hb, Bool.false_or] at hw
  have hbl : Blocks (serKids cx cs) := fun k hk => by
    have hm : k.node ∈ (serKids cx cs).map (·.node) := List.mem_map.mpr ⟨k, hk, rfl⟩
    rw [serKids_nodes] at hm
    simpa using List.all_eq_true.mp hw.1.2 _ hm
  have hk := serKids_quote hno (m := quoteMark d) (fun h => by simp at h) cs hw.2 hc
  have hq : quoteMark d <+: st.blockquotePrefix ++ ['>'] := by
    have : st.blockquotePrefix ++ ['>'] = quoteMark d := by
      rw [hp]
      clear hk hp
      induction d with
      | zero => rfl
      | succ d ih => rw [List.replicate_succ, List.flatten_cons, List.append_assoc, ih]; rfl
    rw [this]
    exact List.prefix_rfl
  have hn : '\n' ∉ st.blockquotePrefix := by
    rw [hp]
    intro h
    obtain ⟨l, hl, hm⟩ := List.mem_flatten.mp h
    rw [(List.mem_replicate.mp hl).2] at hm
    exact absurd hm (by decide)
  rcases hv with rfl | ⟨type, _, rfl⟩
  · exact quote_adds hk hbl st hd hi hq hn
  · exact alert_adds hk hbl type p st hd hi hq hn

example : (ser codeCx (.mk .blockQuote ⟨1, 1, 1, 1⟩ [exPar [exText "a"],
      .mk .blockQuote ⟨1, 1, 1, 1⟩ [exPar [exText "b"], exPar [exText "c"]]]) false
      { blockquotePrefix := ['>', ' '] }).output =
    "> > a\n> >\n> > > b\n> > >\n> > > c\n".toList := by decide +kernel

/-- A block in block quotes. -/
def nestQuote : Nat → Node → Node
  | 0, n => n
  | d + 1, n => .mk .blockQuote ⟨1, 1, 1, 1⟩ [nestQuote d n]

/-- **C49.** False for code in nested quotes: it has only one marker. -/
theorem c49_nested_code_false : ¬ ∀ (d : Nat) (info literal : List Char),
    Prefixed (quoteMark d) (ser codeCx (nestQuote (d + 1) (.mk (.codeBlock info literal) ⟨1, 1, 1, 1⟩ []))
      false {}).output := by
  intro h
  exact absurd (prefixed_split (h 1 [] "x\n".toList)) (by decide +kernel)

/-- **C49.** The same for thematic breaks. -/
theorem c49_nested_break_false : ¬ ∀ (d : Nat),
    Prefixed (quoteMark d) (ser codeCx (nestQuote (d + 1) (.mk .thematicBreak ⟨1, 1, 1, 1⟩ [])) false {}).output := by
  intro h
  exact absurd (prefixed_split (h 1)) (by decide +kernel)

/-- **C49.** The same for tables. -/
theorem c49_nested_table_false : ¬ ∀ (d : Nat) (aligns : List Align) (rows : List Node),
    Prefixed (quoteMark d) (ser codeCx (nestQuote (d + 1) (.mk (.table aligns) ⟨1, 1, 1, 1⟩ rows)) false {}).output := by
  intro h
  exact absurd (prefixed_split (h 1 [.left] [.mk .tableRow ⟨1, 1, 1, 1⟩ [.mk .tableCell ⟨1, 1, 1, 1⟩ [exText "d"]]]))
    (by decide +kernel)

/-- **C49.** The same for lists. -/
theorem c49_nested_list_false : ¬ ∀ (d : Nat) (type : ListType) (text : String),
    Prefixed (quoteMark d) (ser codeCx (nestQuote (d + 1) (exList type [[exPar [exText text]]])) false {}).output := by
  intro h
  exact absurd (prefixed_split (h 1 .bullet "a")) (by decide +kernel)

/-- **C49.** False for headings: they have no marker and so leave the quote. -/
theorem c49_heading_false : ¬ ∀ (level : Nat) (text : String),
    Prefixed ['>'] (ser codeCx (nestQuote 1 (.mk (.heading level) ⟨1, 1, 1, 1⟩ [exText text])) false {}).output := by
  intro h
  exact absurd (prefixed_split (h 3 "Title")) (by decide +kernel)

/-- **C49.** False for HTML: only what the source has. -/
theorem c49_html_false : ¬ ∀ (literal : List Char),
    Prefixed ['>'] (ser codeCx (nestQuote 1 (.mk (.htmlBlock literal) ⟨1, 1, 1, 1⟩ [])) false {}).output := by
  intro h
  exact absurd (prefixed_split (h "<p>\n".toList)) (by decide +kernel)

/-- **C49.** False for loose lists: there is a blank line between their items. -/
theorem c49_loose_false : ¬ ∀ (a b : String),
    Prefixed ['>'] (ser codeCx (nestQuote 1 (.mk (.list .bullet false) ⟨1, 1, 1, 1⟩
      [exItem [exPar [exText a]], exItem [exPar [exText b]]])) false {}).output := by
  intro h
  exact absurd (prefixed_split (h "a" "b")) (by decide +kernel)

/-- **C49.** False for items with two paragraphs, even in tight lists. -/
theorem c49_item_false : ¬ ∀ (a b : String),
    Prefixed ['>'] (ser codeCx (nestQuote 1 (.mk (.list .bullet true) ⟨1, 1, 1, 1⟩
      [exItem [exPar [exText a], exPar [exText b]]])) false {}).output := by
  intro h
  exact absurd (prefixed_split (h "a" "b")) (by decide +kernel)

end Hongdown.Props
