import Verif.Lemmas.Prefix
import Verif.Spec.Off

/-!
# What stands before a directive
-/

namespace Hongdown
open Model Spec

theorem serKids_cut {h : Node} (cx : Cx) (B : List Node) (hh : nextIsBracket (h :: B) = false) :
    ∀ A : List Node, serKids cx (A ++ h :: B) = serKids cx A ++ ⟨h, ser cx h (nextIsBracket B)⟩ :: serKids cx B
  | [] => by rw [List.nil_append, serKids, serKids, List.nil_append]
  | [a] => by
    show serKids cx (a :: (h :: B)) = _
    rw [serKids, serKids, hh, serKids, serKids, List.cons_append, List.nil_append]
    rfl
  | a :: b :: A => by
    have ih := serKids_cut cx B hh (b :: A)
    rw [List.cons_append, serKids, ih, serKids, List.cons_append]
    congr 2
    obtain ⟨v, q, ks⟩ := b
    cases v <;> rfl

/-- Up to a directive that turns formatting off a document is written as if it ended there. -/
theorem formatDoc_off {cx : Cx} {p q : Pos} {A B : List Node} {r : Pos} {ks : List Node} {literal : List Char} {d : Directive}
    (hw : wellPlacedDoc (A ++ .mk (.htmlBlock literal) r ks :: B) = true) (hn : noteFreeList A = true)
    (hB : ∀ n ∈ B, n.isFootnoteDefinition = false) (hd : ∀ n ∈ A, n.directive ≠ some .disableFile)
    (hl : ∀ n, A.getLast? = some n → n.isPlainHtml = false)
    (hh : (Node.mk (.htmlBlock literal) r ks).directive = some d)
    (ho : d = .disable ∨ d = .disableNextLine ∨ d = .disableNextSection ∨ d = .disableFile) :
    ∃ Y, (formatDoc cx (.mk .document p (A ++ .mk (.htmlBlock literal) r ks :: B))).output =
        (formatDoc cx (.mk .document q A)).output ++ offText A.isEmpty d literal ++ Y := by
  generalize hx : Node.mk (.htmlBlock literal) r ks = h at *
  have hpl : h.isPlainHtml = false := by rw [Node.isPlainHtml, hh]; simp
  have hfd : h.isFootnoteDefinition = false := by rw [← hx]; rfl
  have hnb : nextIsBracket (h :: B) = false := by rw [← hx]; rfl
  have hht : h.html? = some literal := by rw [← hx]; rfl
  have hfA : ∀ n ∈ A, n.isFootnoteDefinition = false := fun n hm => noteFree_def (noteFreeList_mem hn n hm)
  have hf : ∀ n ∈ A ++ h :: B, n.isFootnoteDefinition = false := by
    intro n hm
    rcases List.mem_append.mp hm with hm | hm
    · exact hfA n hm
    · rcases List.mem_cons.mp hm with rfl | hm
      · exact hfd
      · exact hB n hm
  have hwl : wellPlacedList (A ++ h :: B) = true := by
    rw [wellPlacedDoc, Bool.and_eq_true] at hw
    exact hw.2
  have hbl : ∀ c ∈ A ++ h :: B, isItemLike c = false := by
    intro c hc
    rw [wellPlacedDoc, Bool.and_eq_true] at hw
    simpa using List.all_eq_true.mp hw.1 _ hc
  have hwA := (wellPlacedList_append.mp hwl).1
  have hwp : ∀ n ∈ A ++ h :: B, wellPlaced n = true := fun n hm => wellPlacedList_mem hwl hm
  obtain ⟨main, tail, ht⟩ := trailing_exists (A ++ h :: B)
  obtain ⟨C, hmain, hBt⟩ := trailing_split ht ⟨hpl, hfd⟩
  obtain ⟨F, T, _, _, hts⟩ := trailing_spec ht
  have hlen : A.length + 1 ≤ trailingStart (A ++ h :: B) := by
    rw [hts, hmain]; simp only [List.length_append, List.length_cons]; omega
  have hAl : (serKids cx A).length = A.length := by
    rw [← congrArg List.length (serKids_nodes cx A), List.length_map]
  have hdk : ∀ k ∈ serKids cx A, k.node ∈ A := by
    intro k hk
    rw [← serKids_nodes cx A]
    exact List.mem_map.mpr ⟨k, hk, rfl⟩
  -- the two runs over the blocks before the heading
  rw [formatDoc, formatDoc, ser, ser, dispatch, dispatch, serDocument, serDocument, serKids_nodes, serKids_nodes,
    footnotesNone hf, footnotesNone hfA]
  simp only []
  have hst := start_alike (({} : St).warnings ++ undefinedWarnings cx (A ++ h :: B))
    (({} : St).warnings ++ undefinedWarnings cx A) (footnoteRefLinesList (A ++ h :: B)) (footnoteRefLinesList A)
  generalize recordLines (footnoteRefLinesList (A ++ h :: B))
      { ({} : St) with warnings := ({} : St).warnings ++ undefinedWarnings cx (A ++ h :: B) } = s1 at *
  generalize recordLines (footnoteRefLinesList A)
      { ({} : St) with warnings := ({} : St).warnings ++ undefinedWarnings cx A } = s2 at *
  obtain ⟨hal, _⟩ := serTopLoop_alike (cx := cx) (serKids cx A)
    (serKids_alike hwA (fun c hc => hbl c (by simp [hc])) hn (by simp)) none (trailingStart (A ++ h :: B))
    (trailingStart A) (.inr ⟨by omega, by rw [trailingStart_whole hl hfA]; omega⟩) s1 s2 (.inl rfl) hst
  have on1 := serTopLoop_on (cx := cx) (serKids cx A) (fun k hk => hd _ (hdk k hk)) none (trailingStart (A ++ h :: B)) s1
  have on2 := serTopLoop_on (cx := cx) (serKids cx A) (fun k hk => hd _ (hdk k hk)) none (trailingStart A) s2
  rw [on2]
  have hdrop : A.drop (trailingStart A) = [] := by rw [trailingStart_whole hl hfA, List.drop_length]
  rw [hdrop, serKids_cut cx B hnb A, serTopLoop_append cx _ _ _ _ _ on1]
  have hlast : ((serKids cx A).getLast?.map (·.node)).or none = A.getLast? := by
    rw [Option.or_none, ← List.getLast?_map, serKids_nodes]
  rw [hlast, hAl]
  generalize (serTopLoop cx none (trailingStart (A ++ h :: B)) (serKids cx A) s1).1 = sA at *
  generalize (serTopLoop cx none (trailingStart A) (serKids cx A) s2).1 = sB at *
  have hm0 : (trailingStart (A ++ h :: B) - A.length == 0) = false := by
    simp only [beq_eq_false_iff_ne]; omega
  have hok := serKids_ok cx (A ++ h :: B) hwl
  rw [serKids_cut cx B hnb A] at hok
  have hb : Blocks (serKids cx (A ++ h :: B)) := fun k hk => hbl _ (by
    rw [← serKids_nodes cx (A ++ h :: B)]
    exact List.mem_map.mpr ⟨k, hk, rfl⟩)
  rw [serKids_cut cx B hnb A] at hb
  have eC : ∃ g o t, serTopChild cx A.getLast? false ⟨h, ser cx h (nextIsBracket B)⟩ sA = (g, o) ∧
      g.output = (flushAll cx (some h.pos.startLine) sA).output ++ offText A.isEmpty d literal ++ t := by
    have hgap : (if A.getLast?.isSome = true then ['\n'] else []) = (if A.isEmpty = true then [] else ['\n']) := by
      cases A with
      | nil => rfl
      | cons a A => simp
    rw [serTopChild]
    simp only [Bool.false_and, hfd, hh, hht, Option.getD_some]
    rcases ho with rfl | rfl | rfl | rfl
    · exact ⟨_, _, [], rfl, by simp only [writeDirective, St.push, hgap, offText, if_neg (show ¬ Directive.disable = .disableFile by decide), List.append_nil]⟩
    · exact ⟨_, _, [], rfl, by simp only [writeDirective, St.push, hgap, offText, if_neg (show ¬ Directive.disableNextLine = .disableFile by decide), List.append_nil]⟩
    · exact ⟨_, _, [], rfl, by simp only [writeDirective, St.push, hgap, offText, if_neg (show ¬ Directive.disableNextSection = .disableFile by decide), List.append_nil]⟩
    · simp only [Bool.false_eq_true, if_false]
      cases extractSourceFromLine cx (h.pos.endLine + 1) with
      | none => exact ⟨_, _, [], rfl, by simp [St.push, offText]⟩
      | some rest => exact ⟨_, _, '\n' :: rest, rfl, by simp [St.push, offText]⟩
  obtain ⟨g, o, t, eC, eg⟩ := eC
  have growB := serTopLoop_grows (cx := cx) (kids := serKids cx B) (fun k hk => hok k (by simp [hk]))
    (fun k hk => hb k (by simp [hk])) (some h) (trailingStart (A ++ h :: B) - A.length - 1) g
  have growH : Grows g (serTopLoop cx A.getLast? (trailingStart (A ++ h :: B) - A.length)
      (⟨h, ser cx h (nextIsBracket B)⟩ :: serKids cx B) sA).1 := by
    rw [serTopLoop, hm0, eC]
    cases o with
    | true => exact Grows.refl _
    | false => exact growB
  generalize serTopLoop cx A.getLast? (trailingStart (A ++ h :: B) - A.length)
      (⟨h, ser cx h (nextIsBracket B)⟩ :: serKids cx B) sA = r' at *
  have growE : Grows r'.1 (if r'.2 = true then r'.1 else
      outputTrailing ((A ++ h :: B).drop (trailingStart (A ++ h :: B))) (flushAll cx none r'.1)) := by
    split
    · exact Grows.refl _
    · exact (grows_flushAll cx none r'.1).trans (outputTrailing_grows _ _)
  have e2 : (if false = true then sB else outputTrailing [] (flushAll cx none sB)).output =
      (flushAll cx (some h.pos.startLine) sA).output := by
    rw [if_neg (by simp)]
    exact (hal.flush (.inl rfl) cx (some h.pos.startLine) none).out.symm
  rw [e2]
  obtain ⟨u, hu⟩ := growH.out.trans growE.out
  exact ⟨t ++ u, by rw [← hu, eg]; simp only [List.append_assoc]⟩

end Hongdown
