import Verif.Lemmas.SentenceRun
import Verif.Props.Heading
import Verif.Props.HeadingText
import Verif.Props.Document

/-!
# C80: sentence case of whole headings
-/

namespace Hongdown.Props
open Model Spec

/-- **C80.** What becomes of a heading in sentence case. It is cut at its backquotes and every second
piece, code, is copied. In the others the quotation marks are curled, and then text is told from
quotations. A quotation that starts with a capital is treated like a heading of its own, others are
copied. In text, nouns of several words get their listed spelling, and every word follows the rule
for words; only the first word, and capitals after a colon, semicolon or dash, are given or left a
capital. -/
theorem c80_heading {u : Uni} {f : Char → List Char} (hf : CaseFold u f) (hM : MarkOk u) {n : Nouns} (hn : NounsOk f n)
    (hw : WordyNouns u n) (text : List Char) (hm : '�' ∉ text) :
    Sentence u (Recased u n) text (toSentenceCase u n text) :=
  toSentenceCase_ok (fun first _ hs => processText_recased hf.toLetterFold hn hf.single.2 hM hw first hs) hm

theorem asciiUni_mark : MarkOk asciiUni where
  upper c h := by
    have h : '�' = c.toUpper := by simpa [asciiUni] using h
    have h2 := toUpper_lower c
    rw [← h, show '�'.toLower = '�' by decide] at h2
    exact (toLower_eq (d := '�') (by decide)).1 h2.symm
  mark := by decide

/-- The only noun of several words in `exNouns` is `New York`, in any case. -/
theorem exNouns_wordy : WordyNouns asciiUni exNouns := by
  intro p s hp hs
  have hp' : p = "New York".toList := by
    have h1 := hp.1
    have h2 := hp.2.1
    rcases h1 with ⟨b, hb, rfl⟩ | h1
    · exact (show ∀ b ∈ exNouns.builtin, ' ' ∈ b.1 → b.1 = "New York".toList by decide) b hb h2
    · exact (show ∀ p ∈ exNouns.proper, ' ' ∈ p → p = "New York".toList by decide) p h1 h2
  subst hp'
  have h1 : straightened (s.map Char.toLower) = "new york".toList := hs.1.trans (by decide)
  cases s with
  | nil => exact absurd h1 (by decide)
  | cons c s =>
    refine ⟨c, by simp, ?_⟩
    have h2 : (if c.toLower = '’' then '\'' else c.toLower) = 'n' := by
      have := congrArg List.head? h1
      rw [show "new york".toList.head? = some 'n' by decide, List.map_cons, straightened, List.map_cons, List.head?_cons, Option.some.injEq] at this
      exact this
    split at h2
    · exact absurd h2 (by decide)
    · have h3 : c.toNat < 128 := by
        rcases Nat.lt_or_ge c.toNat 128 with h | h
        · exact h
        · exfalso
          have : c.toLower = c := by
            unfold Char.toLower
            have h1 : c.val.toNat = c.toNat := rfl
            rw [dif_neg]
            intro hh
            have := UInt32.le_iff_toNat_le.1 hh.2
            simp at this
            omega
          rw [this] at h2
          subst h2
          exact absurd h (by decide)
      have key : ∀ k : Fin 128, (Char.ofNat k).toLower = 'n' → isWs (Char.ofNat k) = false ∧ Char.ofNat k ∉ [':', ';', '—', '–'] := by decide
      have := key ⟨c.toNat, h3⟩
      simp only [Char.ofNat_toNat] at this
      exact this h2

example : CaseFold asciiUni foldAscii ∧ MarkOk asciiUni ∧ NounsOk foldAscii exNouns ∧ WordyNouns asciiUni exNouns :=
  ⟨foldAscii_ok, asciiUni_mark, exNouns_ok, exNouns_wordy⟩

example : toSentenceCase asciiUni exNouns "seeing NEW York's Parks: Then Go-new york \"And So On\" `New York`".toList =
    "Seeing New York's parks: Then go-New York “And so on” `New York`".toList := by decide +kernel

/-! ### Headings of documents -/

/-- The same formatter without sentence case. -/
def withoutSentenceCase (cx : Cx) : Cx := { cx with opts := { cx.opts with headingSentenceCase := false } }

/-- **C80.** A heading of a document, where formatting is not turned off. Its text without sentence
case becomes its text with sentence case; the proper nouns for that are the built-in ones, those of
the configuration and those of the directives before the heading, without the common nouns of the
configuration and of those directives. -/
theorem c80_document {f : Char → List Char} (cx : Cx) (hs : cx.opts.headingSentenceCase = true)
    (hf : CaseFold cx.uni f) (hM : MarkOk cx.uni) (p q : Pos) (A B : List Node) (level : Nat) (cs : List Node)
    (hwp : wellPlacedDoc (A ++ .mk (.heading level) q cs :: B) = true)
    (hA : ∀ m ∈ A, m.directive ≠ some .disableFile) (hon : ¬ Off A (.mk (.heading level) q cs)) (n : Nouns)
    (hnb : n.builtin = cx.properNouns) (hnp : n.proper = cx.opts.headingProperNouns ++ declaredProper A)
    (hnc : n.common = cx.opts.headingCommonNouns ++ declaredCommon A) (hn : NounsOk f n) (hw : WordyNouns cx.uni n) :
    ∃ text out X w Y, (∀ nb st, (ser (withoutSentenceCase cx) (.mk (.heading 6) q cs) nb st).output =
        st.output ++ ("###### ".toList ++ text ++ ['\n'])) ∧
      ('�' ∉ text → Sentence cx.uni (Recased cx.uni n) text out) ∧
      HeadingLines cx.width cx.opts.setextH1 cx.opts.setextH2 level out w ∧
      (formatDoc cx (.mk .document p (A ++ .mk (.heading level) q cs :: B))).output =
        X ++ gapBetween A (.mk (.heading level) q cs) ++ w ++ Y := by
  obtain ⟨X, Y, h⟩ := c25_on cx p A B (.mk (.heading level) q cs) hwp rfl ⟨_, List.mem_cons_self, rfl, rfl⟩ hA hon
  have hn' : n = headingNouns cx { directiveProperNouns := declaredProper A, directiveCommonNouns := declaredCommon A } := by
    cases n; subst hnb hnp hnc; rfl
  refine ⟨(collectTexts cx cs).1, toSentenceCase cx.uni n (collectTexts cx cs).1, X,
    headingText cx level (toSentenceCase cx.uni n (collectTexts cx cs).1), Y, ?_, ?_, ?_, ?_⟩
  · intro nb st
    rw [ser_heading_output, headingShown, if_neg (by simp [withoutSentenceCase]), withoutSentenceCase, collectTexts_case, headingText, if_neg (by simp), if_neg (by simp)]
    rfl
  · exact c80_heading hf hM hn hw _
  · refine ⟨?_, ?_, ?_⟩
    · rintro rfl h1
      rw [headingText, if_pos ⟨rfl, h1⟩]
      simp
    · rintro rfl h1
      rw [headingText, if_neg (by simp), if_pos ⟨rfl, h1⟩]
      simp
    · intro h1 h2
      rw [headingText, if_neg (by rintro ⟨rfl, h'⟩; rw [h1 rfl] at h'; cases h'), if_neg (by rintro ⟨rfl, h'⟩; rw [h2 rfl] at h'; cases h')]
      simp
  · rw [h, formatted, ser_heading_output, headingShown, if_pos hs, hn']
    rfl

/-- Nouns of directives, one of which is in use at a heading only after it. -/
def exNounDoc : List Node :=
  let p : Pos := ⟨1, 1, 1, 1⟩
  [.mk (.heading 3) p [exText "The Swift Guide"], exDirective "proper-nouns: Swift, Foo" 1,
   .mk (.heading 3) p [exText "The swift Guide"], exDirective "common-nouns: Foo" 1,
   .mk (.heading 3) p [exText "The Foo swift Guide"]]

example : (formatDoc sentenceCx (exDoc exNounDoc)).output =
    ("### The swift guide\n\n<!-- hongdown-proper-nouns: Swift, Foo -->\n\n### The Swift guide\n\n" ++
     "<!-- hongdown-common-nouns: Foo -->\n\n### The foo Swift guide\n").toList := by decide +kernel

/-- The README says that the capitals of quoted text are respected. They are not if the quotation
starts with a capital. -/
theorem c80_quoted_false : ¬ ∀ (n : Nouns) (q : List Char), n.builtin = [] → n.proper = [] → '”' ∉ q → '‘' ∉ q →
    toSentenceCase asciiUni n ("The “".toList ++ q ++ "” example".toList) = "The “".toList ++ q ++ "” example".toList := by
  intro h
  have := h ⟨[], [], []⟩ "Hello World".toList rfl rfl (by decide) (by decide)
  revert this
  decide +kernel

/-- A capital after a colon is not always left: not if another delimiter follows the word. -/
theorem c80_delimiter_false : ¬ ∀ (n : Nouns) (w y : List Char), n.builtin = [] → n.proper = [] →
    (∀ c ∈ w, asciiUni.alphabetic c = true) → (∃ c, w.head? = some c ∧ asciiUni.uppercase c = true) →
    asciiUni.strLower (w.drop 1) = w.drop 1 → y.head?.all (fun c => !asciiUni.alphanumeric c) = true →
    "Note: ".toList ++ w <+: toSentenceCase asciiUni n ("Note: ".toList ++ w ++ y) := by
  intro h
  have := h ⟨[], [], []⟩ "Warning".toList ": text".toList rfl rfl (by decide) ⟨'W', by decide, by decide⟩ (by decide) (by decide)
  revert this
  decide +kernel

end Hongdown.Props
