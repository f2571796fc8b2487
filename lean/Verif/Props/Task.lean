import Verif.Lemmas.Task
import Verif.Props.Lists

/-!
# Task items: C85
-/

namespace Hongdown.Props
open Model Spec

/-- The check box that belongs to an item. -/
def boxOf (n : Node) : Option Char :=
  match n.value with
  | .taskItem none => some ' '
  | .taskItem (some _) => some 'x'
  | _ => none

theorem isBox_cases {n : Node} {box : List Char} (h : IsBox n box) :
    (box = ['[', ' ', ']', ' '] ∧ boxOf n = some ' ') ∨ (box = ['[', 'x', ']', ' '] ∧ boxOf n = some 'x') ∨
      (box = [] ∧ boxOf n = none) := by
  obtain ⟨v, p, cs⟩ := n
  cases v with
  | taskItem s =>
    cases s with
    | none => exact .inl ⟨h, rfl⟩
    | some _ => exact .inr (.inl ⟨h, rfl⟩)
  | _ => exact .inr (.inr ⟨h, rfl⟩)

/-- **C85 is false**: an item that begins with a link, `[x](http://a) b`, is written as the finished
task `[x] b`. -/
theorem c85_link_false : ¬ ∀ (cx : Cx) (text url after : String) (line : List Char),
    plainLabel text.toList = true → isExternalUrl url.toList = true →
    (splitOn '\n' (formatDoc cx
      (exDoc [exList .bullet [[exPar [exLink text url, exText after]]]])).output).head? = some line →
    readTask line = none := by
  intro h
  have := h codeCx "x" "http://a" " b" " -  [x] b".toList (by decide +kernel)
    (by decide +kernel) (by decide +kernel)
  revert this
  decide +kernel

/-- **C85.** The first line of an item reads as a task with the mark of the item if it is one, and
as no task otherwise. Missing: text that begins with `[` (see `c85_link_false`), items in block
quotes, and items that do not begin with a paragraph. -/
theorem c85_item_partial (cx : Cx) (v : NodeValue) (p p' : Pos) (ts B : List Node) (nb : Bool) (st : St)
    (type : ListType) (hw : wellPlaced (.mk v p (.mk .paragraph p' ts :: B)) = true)
    (hi : isItemLike (.mk v p (.mk .paragraph p' ts :: B)) = true)
    (ht : st.listType = some type) (hd : st.inDescriptionDetails = false) (hq : st.inBlockQuote = false)
    (ho : OptionsOk cx.opts) (hsp : 1 ≤ cx.opts.trailingSpaces) (how : cx.opts.orderedListIndentWidth ≤ 6)
    (hk : st.listItemIndex + 1 < 10 ^ 9) (ha : abbreviationDef cx p' = none) (c : Char)
    (hc : (trim (collectInlines cx ts).1).head? = some c) (hz : c ≠ '\x00') (hb : c ≠ '[') :
    ∃ pre line rest, (ser cx (.mk v p (.mk .paragraph p' ts :: B)) nb st).output =
        st.output ++ pre ++ line ++ rest ∧ (pre = [] ∨ pre = ['\n']) ∧ '\n' ∉ line ∧
      (rest = [] ∨ rest.head? = some '\n') ∧
      readTask line = boxOf (.mk v p (.mk .paragraph p' ts :: B)) := by
  have hws : isWs c = false := trim_head _ c hc
  obtain ⟨pfx, tail, hout⟩ := item_first cx v p p' ts B nb st hw hi (by rw [ht]; rfl) ha
  obtain ⟨pre, a, m, box, hlead, hpre, hm, hbox, -, -⟩ := lead_parts cx type
    (.mk v p (.mk .paragraph p' ts :: B)) st ht hd
  rw [hlead, hq] at hout
  have hhead := wrapTextFirstLine_head cx.width (pfx := pfx) (lw := cx.opts.lineWidth) hc hws hz
  generalize wrapTextFirstLine cx.width (trim (collectInlines cx ts).1) [] pfx cx.opts.lineWidth = out
    at hout hhead
  have hnl : c ≠ '\n' := by rintro rfl; revert hws; decide
  -- the first line of the text
  obtain ⟨l, r, e, h1, h2, h3⟩ : ∃ l r, out ++ tail = l ++ r ∧ l.head? = some c ∧ '\n' ∉ l ∧
      (r = [] ∨ r.head? = some '\n') := by
    refine ⟨(out ++ tail).takeWhile (· ≠ '\n'), (out ++ tail).dropWhile (· ≠ '\n'),
      List.takeWhile_append_dropWhile.symm, ?_, ?_, ?_⟩
    · cases out with
      | nil => cases hhead
      | cons d o =>
        have : d = c := by simpa using hhead
        subst this
        rw [List.cons_append, List.takeWhile_cons, if_pos (by simpa using hnl)]; rfl
    · intro hmem
      have := List.all_takeWhile (l := out ++ tail) (p := (· ≠ '\n'))
      rw [List.all_eq_true] at this
      simpa using this _ hmem
    · cases hdw : (out ++ tail).dropWhile (· ≠ '\n') with
      | nil => exact .inl rfl
      | cons d o =>
        have := List.head?_dropWhile_not (p := fun c => decide (c ≠ '\n')) (l := out ++ tail)
        rw [hdw] at this
        exact .inr (by simpa using this)
  have hmn : '\n' ∉ m := by
    cases type with
    | bullet =>
      have hm : m = _ := hm
      have := ho.unorderedMarker
      rw [hm]
      intro hmem
      simp only [List.mem_append, List.mem_replicate, List.mem_cons] at hmem
      rcases hmem with ⟨_, hx⟩ | hx | ⟨_, hx⟩
      · cases hx
      · rw [← hx] at this; revert this; decide
      · cases hx
    | ordered =>
      obtain ⟨digits, gap, e, hdg, -⟩ := hm
      have h0 := (digits_of_decimal hdg).2
      have h4 := ho.oddMarker
      have h5 := ho.evenMarker
      rw [e]
      intro hmem
      simp only [List.mem_append, List.mem_replicate, List.mem_cons] at hmem
      rcases hmem with hx | hx | ⟨_, hx⟩
      · have := h0 _ hx
        exact absurd this.1 (by decide)
      · split at hx
        · rw [← hx] at h4; revert h4; decide
        · rw [← hx] at h5; revert h5; decide
      · cases hx
  have hboxn : '\n' ∉ box := by
    rcases isBox_cases hbox with ⟨e, _⟩ | ⟨e, _⟩ | ⟨e, _⟩ <;> rw [e] <;> decide
  refine ⟨pre, List.replicate a ' ' ++ m ++ box ++ l, r, ?_, hpre, ?_, h3, ?_⟩
  · rw [← hout]
    simp only [List.append_assoc, Bool.false_eq_true, if_false, List.nil_append, e]
  · simp only [List.mem_append, List.mem_replicate, not_or]
    exact ⟨⟨⟨by simp, hmn⟩, hboxn⟩, h2⟩
  · -- the content of the item
    have htext : box ++ l ≠ [] ∧ (box ++ l).head? ≠ some ' ' := by
      have hl : l ≠ [] := by rintro rfl; cases h1
      refine ⟨by simp [hl], ?_⟩
      rcases isBox_cases hbox with ⟨e, _⟩ | ⟨e, _⟩ | ⟨e, _⟩ <;> rw [e]
      · exact nofun
      · exact nofun
      · rw [List.nil_append, h1]
        simp only [ne_eq, Option.some.injEq]
        rintro rfl; revert hws; decide
    have hcont : ∃ s, readItem (List.replicate a ' ' ++ m ++ (box ++ l)) = some s ∧ s.content = a + m.length := by
      cases type with
      | bullet => exact ⟨_, c43_bullet_reads_partial cx.opts _ _ a m _ ho hsp hm htext.1 htext.2, rfl⟩
      | ordered => exact ⟨_, c43_ordered_reads_partial cx.opts _ _ a m _ ho (by omega) hk how hm htext.1 htext.2, rfl⟩
    obtain ⟨s, hs, hcol⟩ := hcont
    have hdrop : (List.replicate a ' ' ++ m ++ (box ++ l)).drop (a + m.length) = box ++ l := by
      have : a + m.length = (List.replicate a ' ' ++ m).length := by simp
      rw [this, List.drop_left]
    rw [List.append_assoc (List.replicate a ' ' ++ m), readTask, hs, Option.bind_some, hcol, hdrop]
    rcases isBox_cases hbox with ⟨e, h⟩ | ⟨e, h⟩ | ⟨e, h⟩ <;> rw [e, h]
    · rfl
    · rfl
    · rw [List.nil_append, boxAt_none h1 hb]

/-- A plain item and a finished task, the latter with text that looks like a box. -/
example : (formatDoc codeCx (exDoc [.mk (.list .ordered true) ⟨1, 1, 1, 1⟩ [exItem [exPar [exText "a"]],
    .mk (.taskItem (some 'X')) ⟨1, 1, 1, 1⟩ [exPar [exText "b"]]]])).output = "1.  a\n2.  [x] b\n".toList := by
  decide +kernel
example : readTask "1.  a".toList = none := by decide +kernel
example : readTask "2.  [x] b".toList = some 'x' := by decide +kernel
example : readTask " -  [ ] b".toList = some ' ' := by decide +kernel
example : readTask " -  [x](b)".toList = none := by decide +kernel
example : readTask "[x] b".toList = none := by decide +kernel

end Hongdown.Props
