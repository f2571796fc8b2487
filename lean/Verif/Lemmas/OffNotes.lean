import Verif.Lemmas.Off
import Verif.Lemmas.Section

/-!
# Footnotes before a directive
-/

namespace Hongdown.Model
open Spec

/-- A footnote whose first reference is before a directive that turns formatting off is written before the directive. -/
theorem formatDoc_offNotes {cx : Cx} (hc : NoFormatter cx) {p : Pos} {A B : List Node} {r : Pos} {ks : List Node}
    {literal : List Char} {d : Directive}
    (hw : wellPlacedDoc (A ++ .mk (.htmlBlock literal) r ks :: B) = true)
    (hd : ∀ n ∈ A, n.directive ≠ some .disableFile)
    (hn : ∀ c ∈ A ++ .mk (.htmlBlock literal) r ks :: B, noteFreeList c.children = true)
    (hnd : (fnNames (A ++ .mk (.htmlBlock literal) r ks :: B)).Nodup)
    (hh : (Node.mk (.htmlBlock literal) r ks).directive = some d)
    (ho : d = .disable ∨ d = .disableNextLine ∨ d = .disableNextSection ∨ d = .disableFile) :
    ∃ X Y, (formatDoc cx (.mk .document p (A ++ .mk (.htmlBlock literal) r ks :: B))).output =
        X ++ offText A.isEmpty d literal ++ Y ∧
      ∀ name q fs line, .mk (.footnoteDefinition name) q fs ∈ A ++ .mk (.htmlBlock literal) r ks :: B →
        FirstReference (A ++ .mk (.htmlBlock literal) r ks :: B) name line → 0 < line → line < r.startLine →
        ∃ f : Footnote, f.name = name ∧ VisIn (noteText cx fs) f.content ∧ footnoteText cx f <:+: X := by
  have hpos : (Node.mk (.htmlBlock literal) r ks).pos.startLine = r.startLine := rfl
  rw [← hpos]
  generalize hx : Node.mk (.htmlBlock literal) r ks = h at *
  have hpl : h.isPlainHtml = false := by rw [Node.isPlainHtml, hh]; simp
  have hfd : h.isFootnoteDefinition = false := by rw [← hx]; rfl
  have hnb : nextIsBracket (h :: B) = false := by rw [← hx]; rfl
  have hht : h.html? = some literal := by rw [← hx]; rfl
  have hwl : wellPlacedList (A ++ h :: B) = true := by
    rw [wellPlacedDoc, Bool.and_eq_true] at hw
    exact hw.2
  have hbl : ∀ c ∈ A ++ h :: B, isItemLike c = false := by
    intro c hc
    rw [wellPlacedDoc, Bool.and_eq_true] at hw
    simpa using List.all_eq_true.mp hw.1 _ hc
  obtain ⟨main, tail, ht⟩ := trailing_exists (A ++ h :: B)
  obtain ⟨C, hmain, hBt⟩ := trailing_split ht ⟨hpl, hfd⟩
  obtain ⟨F, T, _, _, hts⟩ := trailing_spec ht
  have hlen : A.length + 1 ≤ trailingStart (A ++ h :: B) := by
    rw [hts, hmain]; simp only [List.length_append, List.length_cons]; omega
  have hok := serKids_ok cx (A ++ h :: B) hwl
  have hnodes := serKids_nodes cx (A ++ h :: B)
  have hsplit := serKids_cut cx B hnb A
  have hmem : ∀ k ∈ serKids cx (A ++ h :: B), k.node ∈ A ++ h :: B := by
    intro k hk
    rw [← hnodes]
    exact List.mem_map.mpr ⟨k, hk, rfl⟩
  have hb : Blocks (serKids cx (A ++ h :: B)) := fun k hk => hbl _ (hmem k hk)
  have hfree : ∀ name, ∀ k ∈ serKids cx (A ++ h :: B), k.node.isFootnoteDefinition = false →
      name ∉ (uses cx k.node).fns := by
    intro name k hk hkd
    rw [uses_noteFree cx k.node]
    · simp
    · have := hn _ (hmem k hk)
      obtain ⟨⟨v, q', gs⟩, act⟩ := k
      rw [noteFree, Bool.and_eq_true]
      refine ⟨?_, this⟩
      cases v <;> simp [Node.isFootnoteDefinition, Node.value] at hkd <;> rfl
  rw [formatDoc, ser, dispatch, serDocument, hnodes]
  simp only []
  generalize hs1 : ({ ({} : St) with warnings := ({} : St).warnings ++ undefinedWarnings cx (A ++ h :: B) } : St) = s1
  have hv := recordLines_view (footnoteRefLinesList (A ++ h :: B)) s1
  have hlook : ∀ name line, FirstReference (A ++ h :: B) name line →
      (recordLines (footnoteRefLinesList (A ++ h :: B)) s1).footnotes.referenceLines.lookup name = some line := by
    intro name line ⟨before, after, e, hne⟩
    rw [footnoteRefLinesList_eq, e]
    exact recordLines_first after before s1 hne (by rw [← hs1]; rfl)
  have hunseen : ∀ name, Unseen name (recordLines (footnoteRefLinesList (A ++ h :: B)) s1) := by
    intro name
    have := hv.1
    simp only [refView, RefView.mk.injEq] at this
    obtain ⟨_, _, _, h4, h5, _⟩ := this
    rw [Unseen, h4, h5, ← hs1]
    simp
  generalize recordLines (footnoteRefLinesList (A ++ h :: B)) s1 = s2 at *
  have hpend : ∀ name q fs line, .mk (.footnoteDefinition name) q fs ∈ A ++ h :: B →
      FirstReference (A ++ h :: B) name line →
      PendingNote name (fun f => VisIn (noteText cx fs) f.content ∧ f.referenceLine = line)
        (serFootnoteDefinitions (serKids cx (A ++ h :: B)) s2) := by
    intro name q fs line hm hr
    exact (defs_pending hc (A ++ h :: B) hwl hbl hn hnd hm s2 (hunseen name)).mono
      fun f hf => ⟨hf.1, hf.2 line (hlook name line hr)⟩
  generalize serFootnoteDefinitions (serKids cx (A ++ h :: B)) s2 = s3 at *
  have hAmem : ∀ k ∈ serKids cx A, k ∈ serKids cx (A ++ h :: B) := by
    intro k hk; rw [hsplit]; simp [hk]
  have hBmem : ∀ k ∈ serKids cx B, k ∈ serKids cx (A ++ h :: B) := by
    intro k hk; rw [hsplit]; simp [hk]
  have hAl : (serKids cx A).length = A.length := by
    rw [← congrArg List.length (serKids_nodes cx A), List.length_map]
  have hdk : ∀ k ∈ serKids cx A, k.node ∈ A := by
    intro k hk
    rw [← serKids_nodes cx A]
    exact List.mem_map.mpr ⟨k, hk, rfl⟩
  have on1 := serTopLoop_on (cx := cx) (serKids cx A) (fun k hk => hd _ (hdk k hk)) none (trailingStart (A ++ h :: B)) s3
  rw [hsplit, serTopLoop_append cx _ _ _ _ _ on1]
  have hlast : ((serKids cx A).getLast?.map (·.node)).or none = A.getLast? := by
    rw [Option.or_none, ← List.getLast?_map, serKids_nodes]
  rw [hlast, hAl]
  have noteA : ∀ name q fs line, .mk (.footnoteDefinition name) q fs ∈ A ++ h :: B →
      FirstReference (A ++ h :: B) name line →
      Note cx name (fun f => VisIn (noteText cx fs) f.content ∧ f.referenceLine = line)
        (serTopLoop cx none (trailingStart (A ++ h :: B)) (serKids cx A) s3).1 := fun name q fs line hm hr =>
    serTopLoop_note (fun k hk => hok k (hAmem k hk)) (fun k hk => hfree name k (hAmem k hk))
      (fun k hk => hb k (hAmem k hk)) _ _ _ (.inr (hpend name q fs line hm hr))
  generalize (serTopLoop cx none (trailingStart (A ++ h :: B)) (serKids cx A) s3).1 = sA at *
  have hm0 : (trailingStart (A ++ h :: B) - A.length == 0) = false := by
    simp only [beq_eq_false_iff_ne]; omega
  have eC : ∃ g o t, serTopChild cx A.getLast? false ⟨h, ser cx h (nextIsBracket B)⟩ sA = (g, o) ∧
      g.output = (flushAll cx (some h.pos.startLine) sA).output ++ offText A.isEmpty d literal ++ t := by
    have hgap : (if A.getLast?.isSome = true then ['\n'] else []) = (if A.isEmpty = true then [] else ['\n']) := by
      cases A with
      | nil => rfl
      | cons a A => simp
    rw [serTopChild]
    simp only [Bool.false_and, hfd, hh, hht, Option.getD_some]
    rcases ho with rfl | rfl | rfl | rfl
    · exact ⟨_, _, [], rfl, by simp only [writeDirective, St.push, hgap, offText, if_neg (show ¬ Directive.disable = .disableFile by decide), List.append_nil]⟩
    · exact ⟨_, _, [], rfl, by simp only [writeDirective, St.push, hgap, offText, if_neg (show ¬ Directive.disableNextLine = .disableFile by decide), List.append_nil]⟩
    · exact ⟨_, _, [], rfl, by simp only [writeDirective, St.push, hgap, offText, if_neg (show ¬ Directive.disableNextSection = .disableFile by decide), List.append_nil]⟩
    · simp only [Bool.false_eq_true, if_false]
      cases extractSourceFromLine cx (h.pos.endLine + 1) with
      | none => exact ⟨_, _, [], rfl, by simp [St.push, offText]⟩
      | some rest => exact ⟨_, _, '\n' :: rest, rfl, by simp [St.push, offText]⟩
  obtain ⟨g, o, t, eC, eg⟩ := eC
  have growB := serTopLoop_grows (cx := cx) (kids := serKids cx B) (fun k hk => hok k (hBmem k hk))
    (fun k hk => hb k (hBmem k hk)) (some h) (trailingStart (A ++ h :: B) - A.length - 1) g
  have growH : Grows g (serTopLoop cx A.getLast? (trailingStart (A ++ h :: B) - A.length)
      (⟨h, ser cx h (nextIsBracket B)⟩ :: serKids cx B) sA).1 := by
    rw [serTopLoop, hm0, eC]
    cases o with
    | true => exact Grows.refl _
    | false => exact growB
  generalize serTopLoop cx A.getLast? (trailingStart (A ++ h :: B) - A.length)
      (⟨h, ser cx h (nextIsBracket B)⟩ :: serKids cx B) sA = r' at *
  have growE : Grows r'.1 (if r'.2 = true then r'.1 else
      outputTrailing ((A ++ h :: B).drop (trailingStart (A ++ h :: B))) (flushAll cx none r'.1)) := by
    split
    · exact Grows.refl _
    · exact (grows_flushAll cx none r'.1).trans (outputTrailing_grows _ _)
  obtain ⟨u, hu⟩ := growH.out.trans growE.out
  refine ⟨(flushAll cx (some h.pos.startLine) sA).output, t ++ u, by rw [← hu, eg]; simp only [List.append_assoc], ?_⟩
  intro name q fs line hm hr h0 hl
  rcases noteA name q fs line hm hr with ⟨f, e1, e2, e3⟩ | hp
  · exact ⟨f, e1, e2.1, e3.trans (grows_flushAll cx _ sA).out.isInfix⟩
  · obtain ⟨f, rest, e1, e2, e3, e4⟩ := PendingNote.due (cx := cx) hp (some h.pos.startLine) fun f hf => by
      rw [hf.2, dueBefore]
      simp [h0, hl]
    exact ⟨f, e1, e2.1, by rw [e3]; exact e4.trans (List.suffix_append _ _).isInfix⟩

end Hongdown.Model
