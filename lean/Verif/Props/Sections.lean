import Verif.Lemmas.Sections
import Verif.Props.Before

/-!
# C97: sections are formatted independently of each other
-/

namespace Hongdown.Props
open Model Spec

/-- No label is used for references in both parts. -/
def NoCommonLabel (cx : Cx) (A B : List Node) : Prop :=
  ∀ r ∈ namedRefs cx A, ∀ r' ∈ namedRefs cx B, r.label ≠ r'.label

instance (cx : Cx) (A B : List Node) : Decidable (NoCommonLabel cx A B) :=
  inferInstanceAs (Decidable (∀ r ∈ namedRefs cx A, ∀ r' ∈ namedRefs cx B, r.label ≠ r'.label))

/-- **C97 (partial).** Full statement: for all headings, with references and footnotes in common, with HTML blocks at
the end of the first part and with directives in it (`c97_shared_false`, `c97_directive_false`, `c97_level_false`, and
`c96_html_false` and `c96_note_false`). What a document becomes is what its part before a heading of level 2 or 3 becomes,
and what its part from this heading on becomes, each as a document of its own, with blank lines between. The second part
may have directives of all kinds. -/
theorem c97_two_partial (cx : Cx) (p q r : Pos) (A B : List Node) (h : Node)
    (hw : wellPlacedDoc (A ++ h :: B) = true) (hn : noteFreeList (A ++ h :: B) = true)
    (hd : ∀ n ∈ A, n.directive = none) (hl : ∀ n, A.getLast? = some n → n.isPlainHtml = false) (hA : A ≠ [])
    (hh : h.headingLevel = some 2 ∨ h.headingLevel = some 3) (hr : NoCommonLabel cx A (h :: B)) :
    (formatDoc cx (.mk .document p (A ++ h :: B))).output =
      (formatDoc cx (.mk .document q A)).output ++ gapBetween A h ++
        (formatDoc cx (.mk .document r (h :: B))).output := by
  refine formatDoc_sections hw hn hd hl hA hh fun l hl x hx e => ?_
  have hwA : wellPlacedDoc A = true := by
    rw [wellPlacedDoc, Bool.and_eq_true] at hw ⊢
    rw [List.all_append, Bool.and_eq_true] at hw
    exact ⟨hw.1.1, (wellPlacedList_append.mp hw.2).1⟩
  obtain ⟨y, hy, hyl, _⟩ := (c18_document_once cx q A hwA).2.2.1 l hl
  exact hr y hy x hx (hyl.trans e.symm)

/-- The text of the sections `A`, `S`, …, each a document of its own. -/
def oneByOne (cx : Cx) (A : List Node) : List (Node × List Node) → List Char
  | [] => (formatDoc cx (.mk .document ⟨0, 0, 0, 0⟩ A)).output
  | (h, B) :: rest =>
    (formatDoc cx (.mk .document ⟨0, 0, 0, 0⟩ A)).output ++ gapBetween A h ++ oneByOne cx (h :: B) rest

theorem namedRefs_append (cx : Cx) (A B : List Node) : namedRefs cx (A ++ B) = namedRefs cx A ++ namedRefs cx B := by
  have : ∀ l : List Node, preorderList (l ++ B) = preorderList l ++ preorderList B := by
    intro l
    induction l with
    | nil => rfl
    | cons a l ih => rw [List.cons_append, preorderList, ih, preorderList, List.append_assoc]
  rw [namedRefs, namedRefs, namedRefs, this, List.flatMap_append]

/-- **C97 (partial).** Full statement as of `c97_two_partial`. For any number of sections: what a document without
directives becomes is what each of its sections becomes as a document of its own. So a change in one section
changes no line of the other ones. -/
theorem c97_sections_partial (cx : Cx) : ∀ (rest : List (Node × List Node)) (p : Pos) (A : List Node),
    wellPlacedDoc (A ++ rest.flatMap (fun s => s.1 :: s.2)) = true →
    noteFreeList (A ++ rest.flatMap (fun s => s.1 :: s.2)) = true →
    (∀ S ∈ A :: rest.map (fun s => s.1 :: s.2),
      S ≠ [] ∧ (∀ n ∈ S, n.directive = none) ∧ ∀ n, S.getLast? = some n → n.isPlainHtml = false) →
    (∀ s ∈ rest, s.1.headingLevel = some 2 ∨ s.1.headingLevel = some 3) →
    (A :: rest.map (fun s => s.1 :: s.2)).Pairwise (NoCommonLabel cx) →
    (formatDoc cx (.mk .document p (A ++ rest.flatMap (fun s => s.1 :: s.2)))).output = oneByOne cx A rest
  | [], p, A, _, _, _, _, _ => by
    rw [List.flatMap_nil, List.append_nil, oneByOne, formatDoc_eq, formatDoc_eq]
  | (h, B) :: rest, p, A, hw, hn, hs, hh, hr => by
    rw [List.map_cons, List.pairwise_cons] at hr
    obtain ⟨hA, hdA, hlA⟩ := hs A (by simp)
    rw [List.flatMap_cons, List.cons_append] at hw hn ⊢
    have hr1 : NoCommonLabel cx A (h :: (B ++ rest.flatMap (fun s => s.1 :: s.2))) := by
      intro r hm r' hm'
      rw [← List.cons_append, namedRefs_append] at hm'
      rcases List.mem_append.mp hm' with hm' | hm'
      · exact hr.1 (h :: B) (by simp) r hm r' hm'
      · rw [namedRefs, List.mem_flatMap] at hm'
        obtain ⟨n, hn, hm'⟩ := hm'
        have : ∀ l : List (Node × List Node), n ∈ preorderList (l.flatMap (fun s => s.1 :: s.2)) →
            ∃ s ∈ l, n ∈ preorderList (s.1 :: s.2) := by
          intro l
          induction l with
          | nil => intro h; simp [preorderList] at h
          | cons s l ih =>
            intro h
            have e : ∀ (a b : List Node), preorderList (a ++ b) = preorderList a ++ preorderList b := by
              intro a b
              induction a with
              | nil => rfl
              | cons x a ih => rw [List.cons_append, preorderList, ih, preorderList, List.append_assoc]
            rw [List.flatMap_cons, e, List.mem_append] at h
            rcases h with h | h
            · exact ⟨s, by simp, h⟩
            · obtain ⟨s', hs', hn'⟩ := ih h
              exact ⟨s', by simp [hs'], hn'⟩
        obtain ⟨s, hs', hn'⟩ := this rest hn
        exact hr.1 (s.1 :: s.2) (by simp only [List.mem_cons, List.mem_map]; exact .inr ⟨s, hs', rfl⟩) r hm r'
          (List.mem_flatMap.mpr ⟨n, hn', hm'⟩)
    have hw' : wellPlacedDoc ((h :: B) ++ rest.flatMap (fun s => s.1 :: s.2)) = true := by
      rw [wellPlacedDoc, Bool.and_eq_true] at hw ⊢
      rw [List.all_append, Bool.and_eq_true] at hw
      exact ⟨hw.1.2, (wellPlacedList_append.mp hw.2).2⟩
    have hn' : noteFreeList ((h :: B) ++ rest.flatMap (fun s => s.1 :: s.2)) = true := by
      have : ∀ l m : List Node, noteFreeList (l ++ m) = true → noteFreeList m = true := by
        intro l m
        induction l with
        | nil => exact id
        | cons a l ih =>
          intro h
          rw [List.cons_append, noteFreeList, Bool.and_eq_true] at h
          exact ih h.2
      exact this A _ hn
    have h1 := c97_two_partial cx p ⟨0, 0, 0, 0⟩ ⟨0, 0, 0, 0⟩ A (B ++ rest.flatMap (fun s => s.1 :: s.2)) h hw hn hdA hlA hA
      (hh (h, B) (by simp)) hr1
    have h2 := c97_sections_partial cx rest ⟨0, 0, 0, 0⟩ (h :: B) hw' hn'
      (fun S hS => hs S (by rw [List.map_cons]; exact List.mem_cons_of_mem _ hS))
      (fun s hs => hh s (by simp [hs])) hr.2
    rw [h1, oneByOne, ← h2, List.cons_append]

/-- A paragraph with a link, and two sections with a link each. -/
def exThreeParts (b : Node) : List (Node × List Node) :=
  [(.mk (.heading 2) ⟨3, 1, 3, 4⟩ [exText "T"], [exPar [exLink "b" "https://b.example/"]]),
   (.mk (.heading 3) ⟨7, 1, 7, 5⟩ [exText "U"], [exPar [b]])]

example : oneByOne codeCx [exPar [exLink "a" "https://a.example/"]] (exThreeParts (exLink "c" "https://c.example/")) =
    "[a]\n\n[a]: https://a.example/\n\n\nT\n-\n\n[b]\n\n[b]: https://b.example/\n\n### U\n\n[c]\n\n[c]: https://c.example/\n".toList := by
  decide +kernel
example := c97_sections_partial codeCx (exThreeParts (exLink "c" "https://c.example/")) ⟨1, 1, 9, 1⟩
  [exPar [exLink "a" "https://a.example/"]] (by decide +kernel) (by decide +kernel) (by decide +kernel) (by decide +kernel)
  (by decide +kernel)

/-- The hypotheses of `c19_document_partial` can be met, and what it then says of two links with one label. -/
example : referenceText ⟨"a".toList, "https://a.example/".toList, []⟩ <:+:
    (formatDoc codeCx (exDoc (exTwoParts 2))).output :=
  c19_document_partial codeCx ⟨1, 1, 1, 1⟩ (exTwoParts 2) (by decide +kernel) (by decide +kernel) (by decide +kernel)
    (exPar [exLink "b" "https://b.example/", exLink "a" "https://a.example/"]) (by simp [exTwoParts]) _
    [exLink "b" "https://b.example/", exLink "a" "https://a.example/"]
    .here (by decide +kernel) (exLink "a" "https://a.example/") (.here _ (by simp)) _
    (.external _ _ _ _ (by decide +kernel) (by decide +kernel) (by decide +kernel) (by decide +kernel))

/-- **C97.** False if a reference is used in both parts: the second part of the document has no definition for it. -/
theorem c97_shared_false :
    ¬ ∀ (cx : Cx) (p q r : Pos) (A B : List Node) (h : Node), wellPlacedDoc (A ++ h :: B) = true →
      noteFreeList (A ++ h :: B) = true → (∀ n ∈ A ++ h :: B, n.directive = none ∧ n.isPlainHtml = false) → A ≠ [] →
      (h.headingLevel = some 2 ∨ h.headingLevel = some 3) →
      (formatDoc cx (.mk .document p (A ++ h :: B))).output =
        (formatDoc cx (.mk .document q A)).output ++ gapBetween A h ++
          (formatDoc cx (.mk .document r (h :: B))).output := by
  intro H
  exact absurd (H codeCx ⟨1, 1, 1, 1⟩ ⟨1, 1, 1, 1⟩ ⟨1, 1, 1, 1⟩ ((exTwoParts 2).take 1) ((exTwoParts 2).drop 2)
    (.mk (.heading 2) ⟨3, 1, 3, 4⟩ [exText "T"]) (by decide +kernel) (by decide +kernel) (by decide +kernel)
    (by decide +kernel) (.inl rfl)) (by decide +kernel)

example : (formatDoc codeCx (exDoc ((exTwoParts 2).drop 1))).output =
    "T\n-\n\n[b][][a]\n\n[b]: https://b.example/\n[a]: https://a.example/\n".toList := by decide +kernel

/-- A directive in the first part. -/
def exSwitched : List Node :=
  [.mk (.htmlBlock "<!-- hongdown-disable -->\n".toList) ⟨1, 1, 1, 25⟩ [],
   .mk (.heading 2) ⟨3, 1, 3, 4⟩ [exText "T"]]

/-- **C97.** False if there is a directive in the first part: formatting is off in the second part as well. -/
theorem c97_directive_false :
    ¬ ∀ (cx : Cx) (p q r : Pos) (A B : List Node) (h : Node), wellPlacedDoc (A ++ h :: B) = true →
      noteFreeList (A ++ h :: B) = true → (∀ n ∈ A ++ h :: B, n.isPlainHtml = false) → A ≠ [] →
      (h.headingLevel = some 2 ∨ h.headingLevel = some 3) → NoCommonLabel cx A (h :: B) →
      (formatDoc cx (.mk .document p (A ++ h :: B))).output =
        (formatDoc cx (.mk .document q A)).output ++ gapBetween A h ++
          (formatDoc cx (.mk .document r (h :: B))).output := by
  intro H
  exact absurd (H (withSource codeCx "<!-- hongdown-disable -->\n\n## T\n".toList) ⟨1, 1, 3, 4⟩ ⟨1, 1, 1, 25⟩ ⟨3, 1, 3, 4⟩
    (exSwitched.take 1) [] (.mk (.heading 2) ⟨3, 1, 3, 4⟩ [exText "T"]) (by decide +kernel) (by decide +kernel)
    (by decide +kernel) (by decide +kernel) (.inl rfl) (by decide +kernel)) (by decide +kernel)

/-- **C97.** False for the other levels: a heading of level 1, 4, 5 or 6 ends no section. -/
theorem c97_level_false (level : Nat) (hlevel : level = 1 ∨ level = 4 ∨ level = 5 ∨ level = 6) :
    ¬ ∀ (cx : Cx) (p q r : Pos) (A B : List Node) (h : Node), wellPlacedDoc (A ++ h :: B) = true →
      noteFreeList (A ++ h :: B) = true → (∀ n ∈ A ++ h :: B, n.directive = none ∧ n.isPlainHtml = false) → A ≠ [] →
      h.headingLevel = some level → NoCommonLabel cx A (h :: B) →
      (formatDoc cx (.mk .document p (A ++ h :: B))).output =
        (formatDoc cx (.mk .document q A)).output ++ gapBetween A h ++
          (formatDoc cx (.mk .document r (h :: B))).output := by
  intro H
  have := H codeCx ⟨1, 1, 1, 1⟩ ⟨1, 1, 1, 1⟩ ⟨1, 1, 1, 1⟩ ((exTwoParts level).take 1) []
    (.mk (.heading level) ⟨3, 1, 3, 4⟩ [exText "T"])
  rcases hlevel with rfl | rfl | rfl | rfl <;>
    exact absurd (this (by decide +kernel) (by decide +kernel) (by decide +kernel) (by decide +kernel) rfl (by decide +kernel))
      (by decide +kernel)

end Hongdown.Props
