import Verif.Lemmas.Quote
import Verif.Lemmas.Lists
import Verif.Spec.Description

/-!
# Block quotes in list items
-/

namespace Hongdown.Model
open Spec

/-- The paragraphs of a quote with a prefix, and the lines between them. -/
def itemQuoteText (cx : Cx) (pfx sep : List Char) (ps : List Node) : List Char :=
  joined sep (ps.map fun n => wrapText cx.width (collectInlines cx n.children).1 pfx cx.opts.lineWidth ++ ['\n'])

theorem paragraph_output {cx : Cx} {n : Node} (hv : n.value = .paragraph) (ha : NoAbbreviation cx n.pos) (nb : Bool) (st : St)
    (hq : st.inBlockQuote = true) (ht : st.listType = none) :
    (ser cx n nb st).output = st.output ++ (wrapText cx.width (collectInlines cx n.children).1
      (st.blockquoteOuterIndent ++ st.blockquotePrefix) cx.opts.lineWidth ++ ['\n']) ∧
    ctx (ser cx n nb st) = ctx st := by
  obtain ⟨v, p, cs⟩ := n
  obtain rfl : v = .paragraph := hv
  rw [ser, dispatch, serKids_nodes, serParagraph, abbreviation_none (p := p) ha]
  obtain ⟨e0, e⟩ := addReferences_keep st (collectInlines cx cs).2
  obtain ⟨_, h2, _, h4, h5, _, _, _, _, h10, _⟩ := ctx_eq e
  simp only
  rw [h2, ht]
  simp only [Option.isSome_none, Bool.false_eq_true, if_false]
  refine ⟨?_, e⟩
  simp only [St.push, e0, quotePrefix, h4, h5, h10, hq, if_true]
  rfl

theorem quotedChildren {cx : Cx} (sep : List Char) : ∀ (ps : List Node) (st : St),
    (∀ n ∈ ps, n.value = .paragraph ∧ NoAbbreviation cx n.pos) → st.inBlockQuote = true → st.listType = none →
    (serQuoteChildren sep (serKids cx ps) st).output =
      st.output ++ itemQuoteText cx (st.blockquoteOuterIndent ++ st.blockquotePrefix) sep ps
  | [], st, _, _, _ => by simp [serKids, serQuoteChildren, itemQuoteText, joined]
  | [n], st, h, hq, ht => by
    obtain ⟨hv, ha⟩ := h n (.head _)
    rw [serKids, serKids, serQuoteChildren]
    exact (paragraph_output hv ha _ st hq ht).1
  | n :: m :: ps, st, h, hq, ht => by
    obtain ⟨hv, ha⟩ := h n (.head _)
    obtain ⟨e, ec⟩ := paragraph_output hv ha (nextIsBracket (m :: ps)) st hq ht
    obtain ⟨_, c2, _, c4, c5, _, _, _, _, c10, _⟩ := ctx_eq ec
    rw [serKids, serKids, serQuoteChildren]
    · have ih := quotedChildren sep (m :: ps) ((ser cx n (nextIsBracket (m :: ps)) st).push sep)
        (fun x hx => h x (.tail _ hx)) (c4.trans hq) (c2.trans ht)
      rw [serKids] at ih
      rw [ih]
      simp only [St.push, e, c5, c10]
      simp [itemQuoteText, joined, List.append_assoc]
    · simp

theorem itemQuoteText_prefixed {cx : Cx} {pfx m : List Char} (hp : '\n' ∉ pfx) (hm : m <+: trimEnd pfx)
    (hn : '\n' ∉ m) : ∀ ps : List Node, Prefixed m (itemQuoteText cx pfx (m ++ ['\n']) ps)
  | [] => prefixed_nil m
  | [n] => (wrapText_fl cx.width cx.opts.lineWidth hp hm).prefixed
  | n :: n' :: ps => by
    have h1 : Prefixed m (wrapText cx.width (collectInlines cx n.children).1 pfx cx.opts.lineWidth ++ ['\n']) :=
      (wrapText_fl cx.width cx.opts.lineWidth hp hm).prefixed
    have h2 : Prefixed m (m ++ ['\n']) := prefixed_line hn List.prefix_rfl
    have h3 := itemQuoteText_prefixed (cx := cx) hp hm hn (n' :: ps)
    exact (h1.append h2).append h3

/-- The child of an item is written in the context of the item. -/
theorem item_child_quote (cx : Cx) (v : NodeValue) (p : Pos) (A : List Node) (c : Node) (B : List Node)
    (nb : Bool) (st : St) (hw : wellPlaced (.mk v p (A ++ c :: B)) = true)
    (hi : isItemLike (.mk v p (A ++ c :: B)) = true) :
    ∃ (prev : Option Node) (st' : St) (u : List Char),
      let s1 := { st with listItemIndex := st.listItemIndex + 1 }
      st'.output = st.output ++ itemLead cx (taskOf (.mk v p (A ++ c :: B))) s1 ++ u ∧
      st'.inBlockQuote = st.inBlockQuote ∧ st'.blockquotePrefix = st.blockquotePrefix ∧
      st'.listItemIndent = itemIndent cx s1 ∧
      (serItemChild cx (itemIndent cx s1) prev ⟨c, ser cx c (nextIsBracket B)⟩ st').output <+:
        (ser cx (.mk v p (A ++ c :: B)) nb st).output := by
  rw [ser_item_eq cx v p _ nb st hi]
  generalize taskOf (.mk v p (A ++ c :: B)) = task
  rw [wellPlaced, Bool.and_eq_true, Bool.and_eq_true, decide_eq_true_eq, Bool.or_eq_true] at hw
  obtain ⟨⟨hv, hc⟩, hk⟩ := hw
  have hl : isListValue v = false := by
    cases v <;> first | rfl | exact absurd hi (by simp [isItemLike, Node.value])
  have hk := serKids_ok cx _ hk
  have hb : Blocks (serKids cx (A ++ c :: B)) := fun k hkm => by
    rw [hl] at hc
    have hm : k.node ∈ (serKids cx (A ++ c :: B)).map (·.node) := List.mem_map.mpr ⟨k, hkm, rfl⟩
    rw [serKids_nodes] at hm
    simpa using List.all_eq_true.mp (hc.resolve_left (by simp)) _ hm
  obtain ⟨A', h1, h2⟩ := serKids_split cx c B A
  rw [h1] at hk hb
  rw [serItem, h1]
  generalize hs : ({ st with listItemIndex := st.listItemIndex + 1 } : St) = s1
  have hs1 : s1.output = st.output ∧ s1.inBlockQuote = st.inBlockQuote ∧ s1.blockquotePrefix = st.blockquotePrefix := by
    rw [← hs]; exact ⟨rfl, rfl, rfl⟩
  have hind : itemIndent cx (s1.push (itemLead cx task s1)) = itemIndent cx s1 := rfl
  rw [hind]
  obtain ⟨st', h3, h4⟩ := itemChildren_split cx (itemIndent cx s1) ⟨c, ser cx c (nextIsBracket B)⟩
    (serKids cx B) (fun k hkm => hk k (by simp [hkm])) (fun k hkm => hb k (by simp [hkm])) A' none
    { s1.push (itemLead cx task s1) with listItemIndent := itemIndent cx s1 }
    (fun k hkm => hk k (by simp [hkm])) (fun k hkm => hb k (by simp [hkm]))
  obtain ⟨u, hu⟩ := h3.out
  obtain ⟨c1, c2, c3, c4, c5, c6, c7, c8, c9, c10, c11⟩ := ctx_eq h3.ctx
  refine ⟨prevOf none A', st', u, ?_, c4.trans hs1.2.1, c5.trans hs1.2.2, c9, ?_⟩
  · rw [← hu, ← hs1.1]
    rfl
  · refine h4.trans ?_
    split
    · exact List.prefix_rfl
    · exact List.prefix_append _ _

end Hongdown.Model
