import Verif.Lemmas.Keep
import Verif.Lemmas.PunctPipeline
import Verif.Lemmas.Escape
import Verif.Lemmas.Quote

/-!
# No inline node loses its text
-/

namespace Hongdown

open Spec Model

/-- The counted characters of `t` are, in order, among those of `s`. -/
def Keeps (keep : Char → Bool) (t s : List Char) : Prop := (t.filter keep).Sublist (s.filter keep)

namespace Keeps

variable {keep : Char → Bool} {t s u t' s' : List Char}

theorem refl (t : List Char) : Keeps keep t t := List.Sublist.refl _

theorem nil (s : List Char) : Keeps keep [] s := List.nil_sublist _

theorem trans (h : Keeps keep t s) (h' : Keeps keep s u) : Keeps keep t u := List.Sublist.trans h h'

theorem append (h : Keeps keep t s) (h' : Keeps keep t' s') : Keeps keep (t ++ t') (s ++ s') := by
  rw [Keeps, List.filter_append, List.filter_append]
  exact List.Sublist.append h h'

theorem left (h : Keeps keep t s) (x : List Char) : Keeps keep t (x ++ s) := (Keeps.nil x).append h

theorem right (h : Keeps keep t s) (x : List Char) : Keeps keep t (s ++ x) := by
  have := h.append (Keeps.nil x)
  rwa [List.append_nil] at this

theorem of_sub (h : t.Sublist s) : Keeps keep t s := h.filter _

theorem cons (c : Char) (h : Keeps keep t s) : Keeps keep (c :: t) (c :: s) := (Keeps.refl [c]).append h

theorem drop {c : Char} (hc : keep c = false) (h : Keeps keep t s) : Keeps keep (c :: t) s := by
  rw [Keeps, List.filter_cons, hc]
  exact h

theorem add (c : Char) (h : Keeps keep t s) : Keeps keep t (c :: s) := h.left [c]

end Keeps

/-! ### Punctuation -/

theorem keeps_ctxMap {keep : Char → Bool} {σ : Type} (f : σ → Option Char → Char → List Char → Char × σ)
    (hf : ∀ st prev c rest, keep c = true → (f st prev c rest).1 = c) :
    ∀ (s : List Char) (st : σ) (prev : Option Char), Keeps keep s (ctxMap f st prev s)
  | [], _, _ => .nil _
  | c :: cs, st, prev => by
    rw [ctxMap]
    have ih := keeps_ctxMap f hf cs (f st prev c cs).2 (some c)
    cases h : keep c with
    | true => rw [hf _ _ _ _ h]; exact ih.cons c
    | false => exact (ih.add _).drop h

theorem keeps_ellipsis {keep : Char → Bool} (h : keep '.' = false) (s : List Char) :
    Keeps keep s (transformEllipsis s) := by
  fun_induction transformEllipsis s with
  | case1 rest ih => exact (((((ih.add '.').add _).drop h).drop h).drop h).drop h
  | case2 rest _ ih => exact (((ih.add _).drop h).drop h).drop h
  | case3 c rest _ _ ih => exact ih.cons c
  | case4 => exact .nil _

theorem keeps_dashGo {keep : Char → Bool} {pat : List Char} (hn : pat ≠ []) (rep : Char) (h : ∀ c ∈ pat, keep c = false) :
    ∀ (s : List Char) (k : Nat) (prev : Option Char), (∀ c ∈ s.take k, keep c = false) →
      Keeps keep s (dashGo pat rep k prev s)
  | [], k, prev, _ => .nil _
  | c :: cs, k + 1, prev, hk => by
    rw [dashGo]
    rw [List.take_succ_cons] at hk
    exact (keeps_dashGo hn rep h cs k (some c) (fun d hd => hk d (by simp [hd]))).drop (hk c (by simp))
  | c :: cs, 0, prev, _ => by
    rw [dashGo]
    have h0 := keeps_dashGo hn rep h cs 0 (some c) (by simp)
    split
    · rename_i hp
      have hp' : pat <+: c :: cs := List.isPrefixOf_iff_prefix.mp hp
      obtain ⟨d, ds, rfl⟩ := List.exists_cons_of_ne_nil hn
      obtain ⟨rest, hr⟩ := hp'
      simp only [List.cons_append, List.cons.injEq] at hr
      obtain ⟨rfl, rfl⟩ := hr
      have hs := keeps_dashGo hn rep h (ds ++ rest) ds.length (some d) (by
        intro x hx
        rw [List.take_left] at hx
        exact h x (by simp [hx]))
      have hs' := (hs.add rep).drop (h d (by simp))
      split
      · simp only []
        split
        · exact hs'
        · exact h0.cons d
      · exact hs'
    · exact h0.cons c

theorem keeps_dashes {keep : Char → Bool} {pat : List Char} (rep : Char) (h : ∀ c ∈ pat, keep c = false) (s : List Char) :
    Keeps keep s (transformDashes pat rep s) := by
  rw [transformDashes]
  split
  · exact .refl s
  · rename_i hn
    exact keeps_dashGo hn rep h s 0 none (by simp)

theorem keeps_ite {keep : Char → Bool} {b : Bool} {f : List Char → List Char} (s : List Char)
    (h : b = true → Keeps keep s (f s)) : Keeps keep s (if b then f s else s) := by
  cases b with
  | false => exact .refl s
  | true => exact h rfl

theorem keeps_optDash {keep : Char → Bool} (o : Option (List Char)) (rep : Char) (h : ∀ p ∈ o, ∀ c ∈ p, keep c = false)
    (s : List Char) : Keeps keep s (stDash o rep s) := by
  cases o with
  | none => exact .refl s
  | some p => exact keeps_dashes rep (h p rfl) s

theorem keeps_punctuation {keep : Char → Bool} (u : Uni) {o : PunctOpts} (h : Counted o keep) (s : List Char) :
    Keeps keep s (transformPunctuation u o s) := by
  rw [transformPunctuation_eq]
  have h1 : ∀ s, Keeps keep s (stApo u o.curlyApostrophes s) := by
    intro s
    refine keeps_ite s fun hb => keeps_ctxMap (apostropheStep u) ?_ s 0 none
    intro st prev c rest hc
    rw [apostropheStep, if_neg]
    intro e
    subst e
    rw [h.apostrophe hb] at hc
    cases hc
  have h2 : ∀ s, Keeps keep s (stSgl u o.curlySingle s) := by
    intro s
    refine keeps_ite s fun hb => keeps_ctxMap (singleStep u) ?_ s true none
    intro st prev c rest hc
    rw [singleStep, if_neg]
    intro e
    subst e
    rw [h.single hb] at hc
    cases hc
  have h3 : ∀ s, Keeps keep s (stDbl o.curlyDouble s) := by
    intro s
    refine keeps_ite s fun hb => keeps_ctxMap doubleStep ?_ s true none
    intro st prev c rest hc
    rw [doubleStep, if_neg]
    intro e
    subst e
    rw [h.double hb] at hc
    cases hc
  have h4 : ∀ s, Keeps keep s (stEll o.ellipsis s) := fun s => keeps_ite s fun hb => keeps_ellipsis (h.dot hb) s
  exact (keeps_optDash o.emDash emDashC h.em s).trans ((keeps_optDash o.enDash enDashC h.en _).trans
    ((h4 _).trans ((h3 _).trans ((h2 _).trans (h1 _)))))

/-! ### Escaping -/

theorem escapeTextGo_sub : ∀ (s : List Char) (p : Option Char), s.Sublist (escapeTextGo p s)
  | [], _ => .refl _
  | c :: cs, p => by
    rw [escapeTextGo]
    split
    · exact .cons _ (.cons_cons _ (escapeTextGo_sub cs (some c)))
    · exact .cons_cons _ (escapeTextGo_sub cs (some c))

theorem escapeChar_sub (c : Char) : [c].Sublist (escapeChar c) := escapeTextGo_sub [c] none

theorem escapeChars_sub : ∀ s : List Char, s.Sublist (s.flatMap escapeChar)
  | [] => .refl _
  | c :: cs => by
    rw [List.flatMap_cons]
    exact List.Sublist.append (escapeChar_sub c) (escapeChars_sub cs)

theorem escapeSrcGo_sub (named : List Char → Option Char) : ∀ (k : Nat) (t s : List Char), '&' ∉ s →
    t.Sublist (escapeSrcGo named k t s) := by
  intro k
  induction k with
  | zero => intro t s _; rw [escapeSrcGo]; exact escapeChars_sub t
  | succ k ih =>
    intro t s hs
    cases t with
    | nil => exact List.nil_sublist _
    | cons t ts =>
      cases s with
      | nil => rw [escapeSrcGo]; exact escapeChars_sub _
      | cons s ss =>
        have hs' : '&' ∉ ss := fun h => hs (by simp [h])
        have ht : '&' ∉ ss.tail := fun h => hs' (List.mem_of_mem_tail h)
        have hsn : s ≠ '&' := fun h => hs (by simp [h])
        rw [escapeSrcGo]
        split
        · split
          · rename_i e
            subst e
            split
            · exact .cons_cons _ (.cons _ (ih _ _ ht))
            · exact List.Sublist.append (escapeChar_sub _) (ih _ _ hs')
          · split
            · refine List.Sublist.append (l₁ := [t]) ?_ (ih _ _ ht)
              split
              · exact .cons _ (.refl _)
              · exact .cons _ (.cons _ (.refl _))
            · exact List.Sublist.append (escapeChar_sub _) (ih _ _ hs)
        · first
            | rw [if_neg hsn]
            | skip
          split
          · exact List.Sublist.append (escapeChar_sub _) (ih _ _ hs')
          · exact ih _ _ hs'

/-! ### Inline nodes -/

section
variable {cx : Cx} {keep : Char → Bool} {skip : Node → Bool}

theorem keeps_textNode (hk : Counted cx.opts.punct keep) {t : List Char} {p : Pos}
    (h : ∀ src, extractSource cx p = some src → '&' ∉ src) : Keeps keep t (textNode cx t p) := by
  unfold textNode
  refine (keeps_punctuation cx.uni hk t).trans ?_
  simp only []
  split
  · rename_i src hs
    exact .of_sub (escapeSrcGo_sub _ _ _ _ (h src hs))
  · exact .of_sub (escapeTextGo_sub _ _)

theorem formatCodeSpan_sub (c : List Char) : c.Sublist (formatCodeSpan c) := by
  have key : ∀ (b : Bool) (d : List Char), c.Sublist (if b then d ++ [' '] ++ c ++ [' '] ++ d else d ++ c ++ d) := by
    intro b d
    cases b with
    | true => exact ((List.sublist_append_right _ _).trans (List.sublist_append_left _ _)).trans (List.sublist_append_left _ _)
    | false => exact (List.sublist_append_right _ _).trans (List.sublist_append_left _ _)
  exact key _ _

theorem keeps_codeNode {code : List Char} {p : Pos}
    (h : ∀ src, extractSource cx p = some src → (code.filter keep).Sublist (src.filter keep)) :
    Keeps keep code (codeNode cx code p) := by
  unfold codeNode
  split
  · rename_i src hs
    split
    · exact h src hs
    · exact .of_sub (formatCodeSpan_sub _)
  · exact .of_sub (formatCodeSpan_sub _)

theorem keeps_softToSpace (hk : Counted cx.opts.punct keep) (s : List Char) : Keeps keep s (softToSpace s) := by
  induction s with
  | nil => exact .nil _
  | cons c s ih =>
    rw [softToSpace, List.map_cons]
    cases hc : keep c with
    | false => exact (ih.add _).drop hc
    | true =>
      rw [if_neg (hk.visible c hc).2]
      exact ih.cons c

mutual
theorem inlineText_link : ∀ n : Node, Keeps keep (inlineText skip true n) (rawText n)
  | .mk v p cs => by
    have h := inlineTexts_link cs
    unfold inlineText
    cases v <;> simp only [] <;> split <;> try exact .nil _
    all_goals first | exact h | exact .nil _ | exact .refl _

theorem inlineTexts_link : ∀ ns : List Node, Keeps keep (inlineTexts skip true ns) (rawTexts ns)
  | [] => .nil _
  | n :: ns => (inlineText_link n).append (inlineTexts_link ns)
end

theorem keeps_inlineLink {t s : List Char} (h : Keeps keep t s) (bang url title : List Char) :
    Keeps keep t (formatInlineLink bang s url title) := by
  rw [formatInlineLink]
  exact ((((h.left _).right _).right _).right _).right _

theorem keeps_externalLink (hk : Counted cx.opts.punct keep) {t s : List Char} (h : Keeps keep t s)
    (url title : List Char) (b : Bool) : Keeps keep t (formatExternalLink s url title b).1 := by
  rw [formatExternalLink]
  exact (((h.trans (keeps_softToSpace hk s)).left _).right _).right _

mutual
theorem keeps_collectInline (hk : Counted cx.opts.punct keep) (hs : ∀ n, skip n = false → OwnText cx keep n) :
    ∀ (n : Node) (nb b : Bool), Keeps keep (inlineText skip b n) (collectInline cx nb n).1
  | .mk v p cs, nb, b => by
    have h := keeps_collectInlines hk hs cs b
    have ht := keeps_collectInlines hk hs cs true
    unfold inlineText
    unfold collectInline
    simp only []
    split
    · exact .nil _
    · rename_i hsk
      have ho := hs _ (by simpa using hsk)
      cases v
      case text t => exact keeps_textNode hk ho
      case code c =>
        simp only []
        cases b with
        | true => exact .nil _
        | false => exact keeps_codeNode ho
      case emph => exact (h.left _).right _
      case strong => exact (h.left _).right _
      case link url title =>
        have hr : referenceStyleInfo cx p = none := ho
        simp only [hr]
        split
        · exact keeps_inlineLink ht _ _ _
        · split
          · rename_i hu
            have := inlineTexts_link (keep := keep) (skip := skip) cs
            rw [hu.2] at this
            exact (this.left _).right _
          · split
            · exact keeps_externalLink hk ht url title nb
            · exact keeps_inlineLink ht _ _ _
      case image url title =>
        have hr : referenceStyleInfo cx p = none := ho
        simp only [hr]
        exact keeps_inlineLink ht _ _ _
      all_goals first | exact h | exact .nil _

theorem keeps_collectInlines (hk : Counted cx.opts.punct keep) (hs : ∀ n, skip n = false → OwnText cx keep n) :
    ∀ (ns : List Node) (b : Bool), Keeps keep (inlineTexts skip b ns) (collectInlines cx ns).1
  | [], _ => .nil _
  | n :: ns, b => (keeps_collectInline hk hs n (nextIsBracket ns) b).append (keeps_collectInlines hk hs ns b)
end

mutual
theorem keeps_collectText (hk : Counted cx.opts.punct keep) (hs : ∀ n, skip n = false → OwnText cx keep n) :
    ∀ n : Node, Keeps keep (inlineText skip false n) (collectText cx n).1
  | .mk v p cs => by
    have h := keeps_collectTexts hk hs cs
    have ht := inlineTexts_link (keep := keep) (skip := skip) cs
    unfold inlineText
    unfold collectText
    simp only []
    split
    · exact .nil _
    · rename_i hsk
      have ho := hs _ (by simpa using hsk)
      cases v
      case text t => exact keeps_textNode hk ho
      case code c => exact keeps_codeNode ho
      case emph => exact (h.left _).right _
      case strong => exact (h.left _).right _
      case link url title =>
        have hr : referenceStyleInfo cx p = none := ho
        simp only [hr]
        split
        · exact keeps_externalLink hk ht url title false
        · exact keeps_inlineLink ht _ _ _
      case image url title => exact keeps_inlineLink ht _ _ _
      all_goals first | exact h | exact .nil _

theorem keeps_collectTexts (hk : Counted cx.opts.punct keep) (hs : ∀ n, skip n = false → OwnText cx keep n) :
    ∀ ns : List Node, Keeps keep (inlineTexts skip false ns) (collectTexts cx ns).1
  | [] => .nil _
  | n :: ns => (keeps_collectText hk hs n).append (keeps_collectTexts hk hs ns)
end

end

/-! ### Blocks -/

mutual
theorem keeps_blockText {keep : Char → Bool} {par par' : Pos → List Node → List Char} {head head' cell cell' : List Node → List Char}
    (hp : ∀ p cs, Keeps keep (par p cs) (par' p cs)) (hh : ∀ cs, Keeps keep (head cs) (head' cs))
    (hc : ∀ cs, Keeps keep (cell cs) (cell' cs)) : ∀ n : Node,
      Keeps keep (blockText par head cell n) (blockText par' head' cell' n)
  | .mk v p cs => by
    have h := keeps_blockTexts hp hh hc cs
    unfold blockText
    cases v
    case paragraph => exact hp p cs
    case heading => exact hh cs
    case table =>
      simp only []
      generalize cs.flatMap Node.children = l
      induction l with
      | nil => exact .nil _
      | cons c l ih =>
        rw [List.flatMap_cons, List.flatMap_cons]
        exact (hc _).append ih
    all_goals first | exact h | exact .refl _

theorem keeps_blockTexts {keep : Char → Bool} {par par' : Pos → List Node → List Char} {head head' cell cell' : List Node → List Char}
    (hp : ∀ p cs, Keeps keep (par p cs) (par' p cs)) (hh : ∀ cs, Keeps keep (head cs) (head' cs))
    (hc : ∀ cs, Keeps keep (cell cs) (cell' cs)) : ∀ ns : List Node,
      Keeps keep (blockTexts par head cell ns) (blockTexts par' head' cell' ns)
  | [] => .nil _
  | n :: ns => by
    rw [blockTexts, blockTexts]
    exact (keeps_blockText hp hh hc n).append (keeps_blockTexts hp hh hc ns)
end

theorem keeps_of_within {keep : Char → Bool} (hv : ∀ c, keep c = true → isWs c = false ∧ c ≠ '\x00') {t s : List Char}
    (h : VisIn t s) : Keeps keep t s := by
  have e : ∀ x : List Char, x.filter keep = (visible x).filter keep := by
    intro x
    rw [visible, List.filter_filter]
    apply List.filter_congr
    intro c _
    cases hc : keep c with
    | false => rfl
    | true => simp [hv c hc]
  rw [Keeps, e t, e s]
  exact h.filter _

theorem abbreviationDef_of {cx : Cx} {keep : Char → Bool} {p : Pos} {cs : List Node}
    (ho : OwnText cx keep (.mk .paragraph p cs)) : abbreviationDef cx p = none := by
  rw [abbreviationDef]
  split
  · rfl
  · rename_i src hsrc
    rw [if_neg]
    intro hc
    rw [Bool.and_eq_true] at hc
    exact ho src hsrc ⟨List.isPrefixOf_iff_prefix.mp hc.1, containsSub_of_infix (by simp) hc.2⟩

theorem docText_keeps {cx : Cx} {keep : Char → Bool} {skip : Node → Bool} (hk : Counted cx.opts.punct keep)
    (hs : ∀ n, skip n = false → OwnText cx keep n) (hsc : cx.opts.headingSentenceCase = false) (n : Node) :
    Keeps keep (docText skip n) (txt cx n) := by
  refine keeps_blockText ?_ ?_ (keeps_collectInlines hk hs · false) n
  · intro p cs
    split
    · exact .nil _
    · rename_i h
      have ho : OwnText cx keep (.mk .paragraph p cs) := hs _ (by simpa using h)
      rw [parText, abbreviationDef_of ho]
      exact keeps_collectInlines hk hs cs false
  · intro cs
    rw [headText, hsc]
    exact keeps_collectTexts hk hs cs

end Hongdown
