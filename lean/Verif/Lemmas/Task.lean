import Verif.Lemmas.WrapHead
import Verif.Lemmas.Lists
import Verif.Lemmas.Table
import Verif.Spec.Task

/-!
# The first line of an item
-/

namespace Hongdown.Model
open Spec

theorem boxAt_none {text : List Char} {c : Char} (h : text.head? = some c) (hc : c ≠ '[') : boxAt text = none := by
  cases text with
  | nil => rfl
  | cons d r =>
    have : d = c := by simpa using h
    subst this
    unfold boxAt
    split
    · rename_i e; exact absurd (List.cons.inj e).1 hc
    · rfl

/-- What an item that begins with a paragraph writes first. -/
theorem item_first (cx : Cx) (v : NodeValue) (p p' : Pos) (ts B : List Node) (nb : Bool) (st : St)
    (hw : wellPlaced (.mk v p (.mk .paragraph p' ts :: B)) = true)
    (hi : isItemLike (.mk v p (.mk .paragraph p' ts :: B)) = true)
    (ht : st.listType.isSome = true) (ha : abbreviationDef cx p' = none) :
    ∃ pfx, st.output ++ itemLead cx (taskOf (.mk v p (.mk .paragraph p' ts :: B)))
        { st with listItemIndex := st.listItemIndex + 1 } ++
        wrapTextFirstLine cx.width (trim (collectInlines cx ts).1) [] pfx cx.opts.lineWidth <+:
      (ser cx (.mk v p (.mk .paragraph p' ts :: B)) nb st).output := by
  rw [ser_item_eq cx v p _ nb st hi]
  generalize taskOf (.mk v p (.mk .paragraph p' ts :: B)) = task
  rw [wellPlaced, Bool.and_eq_true, Bool.and_eq_true, decide_eq_true_eq, Bool.or_eq_true] at hw
  obtain ⟨⟨hv, hc⟩, hk⟩ := hw
  have hl : isListValue v = false := by
    cases v <;> first | rfl | exact absurd hi (by simp [isItemLike, Node.value])
  have hk := serKids_ok cx _ hk
  have hb : Blocks (serKids cx (.mk .paragraph p' ts :: B)) := fun k hkm => by
    rw [hl] at hc
    have hm : k.node ∈ (serKids cx (.mk .paragraph p' ts :: B)).map (·.node) := List.mem_map.mpr ⟨k, hkm, rfl⟩
    rw [serKids_nodes] at hm
    simpa using List.all_eq_true.mp (hc.resolve_left (by simp)) _ hm
  rw [serKids] at hk hb ⊢
  rw [serItem]
  simp only [serItemChildren, serItemChild, Node.value]
  generalize hs : ({ st with listItemIndex := st.listItemIndex + 1 } : St) = s1
  have h1 : s1.output = st.output := by rw [← hs]
  have h2 : s1.listType = st.listType := by rw [← hs]
  generalize hs2 : ({ s1.push (itemLead cx task s1) with listItemIndent := itemIndent cx (s1.push (itemLead cx task s1)) } : St) = s2
  have h3 : s2.output = st.output ++ itemLead cx task s1 := by rw [← hs2]; simp [St.push, h1]
  have h4 : s2.listType.isSome = true := by rw [← hs2]; simpa [St.push, h2] using ht
  have ho := (serItemChildren_ok (itemIndent cx (s1.push (itemLead cx task s1)))
    (fun k hkm => hk k (List.mem_cons_of_mem _ hkm)) (fun k hkm => hb k (List.mem_cons_of_mem _ hkm))
    (some (.mk .paragraph p' ts)) (ser cx (.mk .paragraph p' ts) (nextIsBracket B) s2)).out
  have hp : (ser cx (.mk .paragraph p' ts) (nextIsBracket B) s2).output =
      s2.output ++ wrapTextFirstLine cx.width (trim (collectInlines cx ts).1) []
        (paragraphContinuation cx (addReferences s2 (collectInlines cx ts).2)) cx.opts.lineWidth := by
    simp only [ser, dispatch]
    rw [serParagraph, ha]
    have e : (addReferences s2 (collectInlines cx ts).2).listType = s2.listType :=
      (ctx_eq (okAt_addReferences (collectInlines cx ts).2 s2).ctx).2.1
    have e' := (addReferences_fields (collectInlines cx ts).2 s2).1
    simp only [serKids_nodes, e, h4, if_true, St.push, e']
  refine ⟨paragraphContinuation cx (addReferences s2 (collectInlines cx ts).2), ?_⟩
  rw [← h3, ← hp]
  refine ho.trans ?_
  split
  · exact List.prefix_rfl
  · exact List.prefix_append _ _

end Hongdown.Model
