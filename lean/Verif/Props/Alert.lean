import Verif.Spec.Alert
import Verif.Lemmas.Text
import Verif.Props.Refs

/-!
# C81: GitHub alerts
-/

namespace Hongdown.Props
open Model Spec

/-- **C81.** The claim is false: the title of an alert is lost. -/
theorem c81_title_false : ¬ ∀ (line title text : String) (type : AlertType),
    readAlert line.toList = some (type, title.toList) → title ≠ "" →
    readAlert (firstLine (formatDoc { codeCx with sourceLines := [line.toList, "> ".toList ++ text.toList] }
      (exDoc [.mk (.alert type (some title.toList)) ⟨1, 1, 2, 2 + text.length⟩
        [.mk .paragraph ⟨2, 3, 2, 2 + text.length⟩ [.mk (.text text.toList) ⟨2, 3, 2, 2 + text.length⟩ []]]])).output) =
      some (type, title.toList) := by
  intro h
  have h1 := h "> [!NOTE] Before you start" "Before you start" "Read this." .note (by decide +kernel) (by decide)
  revert h1
  decide +kernel

/-- **C81.** A block quote that is no alert can become one: the kind must stand in the first line of the
quote, and an empty first line is dropped. Here the source is `>` and after that a line of a paragraph. -/
theorem c81_quote_false : ¬ ∀ text : String, '\n' ∉ text.toList → readAlert ['>'] = none →
    readAlert (firstLine (formatDoc { codeCx with sourceLines := [['>'], "> ".toList ++ text.toList] }
      (exDoc [.mk .blockQuote ⟨1, 1, 2, 2 + text.length⟩
        [.mk .paragraph ⟨2, 3, 2, 2 + text.length⟩ [.mk (.text text.toList) ⟨2, 3, 2, 2 + text.length⟩ []]]])).output) = none := by
  intro h
  have h1 := h "[!NOTE]" (by decide) (by decide +kernel)
  revert h1
  decide +kernel

/-- **C81 (partial).** Full statement: with a title, too. An alert without a title is written as a
line that reads as an alert of the same kind without a title, after that an empty line of the quote
if there is one in the source, and then what a block quote with the same content is written as. -/
theorem c81_alert_partial (cx : Cx) (type : AlertType) (p : Pos) (cs : List Node) (nb : Bool) (st : St)
    (hw : wellPlaced (.mk .blockQuote p cs) = true) : ∃ lead header blank body,
    (ser cx (.mk (.alert type none) p cs) nb st).output = st.output ++ (lead ++ header ++ ['\n'] ++ blank ++ body) ∧
    (ser cx (.mk .blockQuote p cs) nb st).output = st.output ++ body ∧
    lead = st.listItemIndent ++ st.blockquotePrefix ∧ readAlert header = some (type, []) ∧
    ((∃ n ns, cs = n :: ns ∧ p.startLine + 1 < n.pos.startLine) → blank = lead ++ ['>', '\n']) ∧
    ((∀ n ns, cs = n :: ns → n.pos.startLine ≤ p.startLine + 1) → blank = []) := by
  have key : ∀ t, ∃ body, (serBlockQuote (serKids cx cs) (st.push t)).output = st.output ++ t ++ body ∧
      (ser cx (.mk .blockQuote p cs) nb st).output = st.output ++ body := by
    intro t
    obtain ⟨-, body, hA, hB⟩ := ser_par cx (.mk .blockQuote p cs) nb hw (st.push t) st rfl
    refine ⟨body, ?_, hB⟩
    simpa only [ser, dispatch, St.push] using hA
  have hh : readAlert (['>', ' ', '[', '!'] ++ alertName type ++ [']']) = some (type, []) := by
    cases type <;> decide +kernel
  have hkids : (serKids cx cs).head?.any (fun k => decide (p.startLine + 1 < k.node.pos.startLine)) =
      cs.head?.any fun n => decide (p.startLine + 1 < n.pos.startLine) := by
    have h := congrArg List.head? (serKids_nodes cx cs)
    rw [List.head?_map] at h
    rw [← h]
    cases (serKids cx cs).head? <;> rfl
  by_cases hb : cs.head?.any (fun n => decide (p.startLine + 1 < n.pos.startLine)) = true
  · obtain ⟨body, h1, h2⟩ := key ((st.listItemIndent ++ st.blockquotePrefix ++ ['>', ' ', '[', '!'] ++ alertName type ++ [']', '\n']) ++
      (st.listItemIndent ++ st.blockquotePrefix ++ ['>', '\n']))
    refine ⟨_, _, st.listItemIndent ++ st.blockquotePrefix ++ ['>', '\n'], body, ?_, h2, rfl, hh, fun _ => rfl, fun h => ?_⟩
    · simp only [ser, dispatch, serAlert, hkids, hb, if_true]
      rw [show ∀ a b, (st.push a).push b = st.push (a ++ b) by intro a b; simp [St.push], h1]
      simp
    · cases cs with
      | nil => cases hb
      | cons n ns =>
        have h1 := h n ns rfl
        have h2 : p.startLine + 1 < n.pos.startLine := by simpa using hb
        omega
  · obtain ⟨body, h1, h2⟩ := key (st.listItemIndent ++ st.blockquotePrefix ++ ['>', ' ', '[', '!'] ++ alertName type ++ [']', '\n'])
    refine ⟨_, _, [], body, ?_, h2, rfl, hh, fun ⟨n, ns, e, h⟩ => ?_, fun _ => rfl⟩
    · simp only [ser, dispatch, serAlert, hkids, hb, if_false, Bool.false_eq_true]
      rw [h1]
      simp
    · rw [e] at hb
      exact absurd (by simpa using h) hb

example : wellPlaced (.mk .blockQuote ⟨1, 1, 3, 7⟩ [.mk .paragraph ⟨3, 3, 3, 7⟩ [exText "Hello"]]) = true := by decide +kernel
example : (ser codeCx (.mk (.alert .caution none) ⟨1, 1, 3, 7⟩ [.mk .paragraph ⟨3, 3, 3, 7⟩ [exText "Hello"]]) false
    { listItemIndent := spaces 4 }).output = "    > [!CAUTION]\n    >\n    > Hello\n".toList := by decide +kernel
example : readAlert "> [!Caution]  Take care ".toList = some (.caution, "Take care".toList) := by decide +kernel
example : readAlert "> [!cautious]".toList = none := by decide +kernel

end Hongdown.Props
