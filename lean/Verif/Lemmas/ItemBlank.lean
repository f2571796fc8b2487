import Verif.Lemmas.FileEnd
import Verif.Lemmas.Lists

/-!
# Two neighbouring blocks of an item
-/

namespace Hongdown.Model
open Spec

theorem nextIsBracket_head (n : Node) (l l' : List Node) : nextIsBracket (n :: l) = nextIsBracket (n :: l') := by
  obtain ⟨v, p, cs⟩ := n
  cases v <;> rfl

theorem serKids_pair (cx : Cx) (a b : Node) (B : List Node) (hb : nextIsBracket (b :: B) = false) : ∀ A : List Node,
    ∃ K, serKids cx (A ++ a :: b :: B) = K ++ ⟨a, ser cx a false⟩ :: ⟨b, ser cx b (nextIsBracket B)⟩ :: serKids cx B ∧
      serKids cx (A ++ [a]) = K ++ [⟨a, ser cx a false⟩]
  | [] => ⟨[], by rw [List.nil_append, serKids, serKids, hb]; rfl, by rw [List.nil_append, serKids, serKids]; rfl⟩
  | x :: A => by
    obtain ⟨K, h1, h2⟩ := serKids_pair cx a b B hb A
    have e : nextIsBracket (A ++ a :: b :: B) = nextIsBracket (A ++ [a]) := by
      cases A with
      | nil => exact nextIsBracket_head a _ _
      | cons y A => exact nextIsBracket_head y _ _
    exact ⟨⟨x, ser cx x (nextIsBracket (A ++ [a]))⟩ :: K, by rw [List.cons_append, serKids, h1, e]; rfl,
      by rw [List.cons_append, serKids, h2]; rfl⟩

theorem itemChildren_append (cx : Cx) (indent : List Char) (L : List Kid) : ∀ (K : List Kid) (prev : Option Node) (st : St),
    serItemChildren cx indent prev (K ++ L) st =
      serItemChildren cx indent (prevOf prev K) L (serItemChildren cx indent prev K st)
  | [], _, _ => rfl
  | k :: K, prev, st => by
    rw [List.cons_append, serItemChildren, serItemChildren, itemChildren_append cx indent L K]
    have e : prevOf prev (k :: K) = prevOf (some k.node) K := by
      rw [prevOf, prevOf]
      cases K with
      | nil => rfl
      | cons b A => rw [List.getLast?_cons_cons]; simp [List.getLast?_cons]
    rw [e]

/-- The state after the block `a` of an item, and what is written before `b`. -/
theorem item_pair (cx : Cx) (v : NodeValue) (p : Pos) (A : List Node) (a b : Node) (B : List Node) (nb : Bool) (st : St)
    (hw : wellPlaced (.mk v p (A ++ a :: b :: B)) = true) (hi : isItemLike (.mk v p (A ++ a :: b :: B)) = true)
    (hb : nextIsBracket (b :: B) = false) :
    ∃ s : St, s.listDepth = st.listDepth ∧ s.listType = st.listType ∧ s.inBlockQuote = st.inBlockQuote ∧
      s.inDescriptionDetails = st.inDescriptionDetails ∧
      (ser cx (.mk v p (A ++ [a])) nb st).output = (if endsLine a then s.output else s.output ++ ['\n']) ∧
      (serItemChild cx (itemIndent cx { st with listItemIndex := st.listItemIndex + 1 }) (some a) ⟨b, ser cx b (nextIsBracket B)⟩ s).output <+:
        (ser cx (.mk v p (A ++ a :: b :: B)) nb st).output := by
  have hi' : isItemLike (.mk v p (A ++ [a])) = true := by
    cases v <;> first | rfl | exact absurd hi (by simp [isItemLike, Node.value])
  have ht : taskOf (.mk v p (A ++ [a])) = taskOf (.mk v p (A ++ a :: b :: B)) := rfl
  rw [ser_item_eq cx v p _ nb st hi, ser_item_eq cx v p _ nb st hi', ht]
  generalize taskOf (.mk v p (A ++ a :: b :: B)) = task
  rw [wellPlaced, Bool.and_eq_true, Bool.and_eq_true, decide_eq_true_eq, Bool.or_eq_true] at hw
  obtain ⟨⟨hv, hc⟩, hk⟩ := hw
  have hl : isListValue v = false := by
    cases v <;> first | rfl | exact absurd hi (by simp [isItemLike, Node.value])
  have hk := serKids_ok cx _ hk
  have hbl : Blocks (serKids cx (A ++ a :: b :: B)) := fun k hkm => by
    rw [hl] at hc
    have hm : k.node ∈ (serKids cx (A ++ a :: b :: B)).map (·.node) := List.mem_map.mpr ⟨k, hkm, rfl⟩
    rw [serKids_nodes] at hm
    simpa using List.all_eq_true.mp (hc.resolve_left (by simp)) _ hm
  obtain ⟨K, h1, h2⟩ := serKids_pair cx a b B hb A
  rw [h1] at hk hbl
  rw [serItem, serItem, h1, h2]
  generalize hs : ({ st with listItemIndex := st.listItemIndex + 1 } : St) = s1
  have hs1 : s1.listDepth = st.listDepth ∧ s1.listType = st.listType ∧
      s1.inBlockQuote = st.inBlockQuote ∧ s1.inDescriptionDetails = st.inDescriptionDetails := by
    rw [← hs]; exact ⟨rfl, rfl, rfl, rfl⟩
  have hind : itemIndent cx (s1.push (itemLead cx task s1)) = itemIndent cx s1 := rfl
  rw [hind]
  generalize hs2 : ({ s1.push (itemLead cx task s1) with listItemIndent := itemIndent cx s1 } : St) = s2
  have e2 : s2.listDepth = s1.listDepth ∧ s2.listType = s1.listType ∧ s2.inBlockQuote = s1.inBlockQuote ∧
      s2.inDescriptionDetails = s1.inDescriptionDetails := by rw [← hs2]; exact ⟨rfl, rfl, rfl, rfl⟩
  have h3 := serItemChildren_ok (cx := cx) (itemIndent cx s1) (kids := K ++ [⟨a, ser cx a false⟩])
    (fun k hkm => hk k (by simp only [List.mem_append, List.mem_singleton] at hkm; rcases hkm with h | h <;> simp [h]))
    (fun k hkm => hbl k (by simp only [List.mem_append, List.mem_singleton] at hkm; rcases hkm with h | h <;> simp [h])) none s2
  obtain ⟨c1, c2, c3, c4, c5, c6, c7, c8, c9, c10, c11⟩ := ctx_eq h3.ctx
  refine ⟨serItemChildren cx (itemIndent cx s1) none (K ++ [⟨a, ser cx a false⟩]) s2, c6.trans (e2.1.trans hs1.1),
    c2.trans (e2.2.1.trans hs1.2.1), c4.trans (e2.2.2.1.trans hs1.2.2.1), c7.trans (e2.2.2.2.trans hs1.2.2.2), ?_, ?_⟩
  · simp only [List.getLast?_append, List.getLast?_singleton, Option.some_or, Option.any_some]
    split <;> rfl
  · have e : K ++ ⟨a, ser cx a false⟩ :: ⟨b, ser cx b (nextIsBracket B)⟩ :: serKids cx B =
        (K ++ [⟨a, ser cx a false⟩]) ++ ⟨b, ser cx b (nextIsBracket B)⟩ :: serKids cx B := by simp
    have hp : prevOf none (K ++ [(⟨a, ser cx a false⟩ : Kid)]) = some a := by simp [prevOf]
    have happ := itemChildren_append cx (itemIndent cx s1) (⟨b, ser cx b (nextIsBracket B)⟩ :: serKids cx B)
      (K ++ [⟨a, ser cx a false⟩]) none s2
    rw [hp, serItemChildren] at happ
    rw [e, happ]
    have h4 := (serItemChildren_ok (cx := cx) (itemIndent cx s1) (kids := serKids cx B) (fun k hkm => hk k (by simp [hkm]))
      (fun k hkm => hbl k (by simp [hkm])) (some b) (serItemChild cx (itemIndent cx s1) (some a) ⟨b, ser cx b (nextIsBracket B)⟩
        (serItemChildren cx (itemIndent cx s1) none (K ++ [⟨a, ser cx a false⟩]) s2))).out
    refine h4.trans ?_
    split
    · exact List.prefix_rfl
    · exact List.prefix_append _ _

end Hongdown.Model
