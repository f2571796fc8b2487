import Verif.Lemmas.RefRun
import Verif.Model.Document
import Verif.Props.Code

/-!
# References and footnotes: C18–C22, C61, C62
-/

namespace Hongdown.Props
open Model Spec

/-! ### C20: order of definitions -/

/-- **C20.** `flush_references` writes, after one blank line, the definitions of the pending
references not written before in the order of `IsOutputOrder`, and nothing else. Nothing
is pending afterwards. -/
theorem c20_flush (st : St) :
    let fresh := (st.pendingReferences.map (·.2)).filter fun r => r.label ∉ st.emittedReferences
    ∃ rs, IsOutputOrder (fun r => labelNumber r.label) fresh rs ∧
      (flushReferences st).pendingReferences = [] ∧
      (flushReferences st).emittedReferences = st.emittedReferences ++ rs.map (·.label) ∧
      (rs = [] → (flushReferences st).output = st.output) ∧
      (rs ≠ [] → ∃ gap, IsGap st.output gap ∧
        (flushReferences st).output = st.output ++ gap ++ (rs.map referenceText).flatten) := by
  have hf : ((st.pendingReferences.map (·.2)).filter fun r => decide (r.label ∉ st.emittedReferences))
      = freshRefs st := by
    rw [freshRefs]; congr 1; funext r; simp
  have hn : (fun r : Ref => labelNumber r.label) = fun r => numericLabel r.label := by
    funext r; exact (numericLabel_eq _).symm
  simp only [hf, hn]
  refine ⟨refsOut st, outputOrder_isOutputOrder _ _, ?_⟩
  rw [flushReferences_eq]
  refine ⟨rfl, rfl, fun h => by simp [h, groupText], fun h => ⟨gapOf st.output, gapOf_isGap _, ?_⟩⟩
  simp [groupText, h]

/-- **C20.** The specification of the order leaves no choice. -/
theorem c20_unique {α : Type} (num : α → Option Nat) (xs ys zs : List α)
    (h : IsOutputOrder num xs ys) (h' : IsOutputOrder num xs zs) : ys = zs := by
  by_cases hc : (xs.filter fun x => (num x).isSome).length < 2
  · rw [h.few hc, h'.few hc]
  · obtain ⟨as, rfl, s1, f1⟩ := h.many (by omega)
    obtain ⟨bs, rfl, s2, f2⟩ := h'.many (by omega)
    congr 1
    have hsome : ∀ cs : List α, (xs.filter (fun x => (num x).isNone) ++ cs).Perm xs →
        ∀ c ∈ cs, (num c).isSome = true := by
      intro cs hp c hcm
      cases hn : num c with
      | some k => rfl
      | none =>
        exfalso
        have h1 := (hp.filter fun x => (num x).isNone).length_eq
        rw [List.filter_append, List.filter_filter] at h1
        have : (cs.filter fun x => (num x).isNone) = [] := by
          simp only [List.length_append] at h1
          have h2 : (xs.filter fun a => (num a).isNone && (num a).isNone) =
              xs.filter fun x => (num x).isNone := by simp only [Bool.and_self]
          rw [h2] at h1
          exact List.eq_nil_of_length_eq_zero (by omega)
        have hm : c ∈ cs.filter fun x => (num x).isNone := List.mem_filter.mpr ⟨hcm, by simp [hn]⟩
        rw [this] at hm
        simp at hm
    have n1 := hsome as h.perm
    have n2 := hsome bs h'.perm
    have hf : ∀ k, (as.filter fun x => num x = some k) = bs.filter fun x => num x = some k :=
      fun k => (f1 k).trans (f2 k).symm
    clear h h' f1 f2 hsome hc
    induction as generalizing bs with
    | nil =>
      cases bs with
      | nil => rfl
      | cons b bs =>
        exfalso
        obtain ⟨k, hk⟩ := Option.isSome_iff_exists.mp (n2 b (by simp))
        have := hf k
        simp [hk] at this
    | cons a as ih =>
      cases bs with
      | nil =>
        exfalso
        obtain ⟨k, hk⟩ := Option.isSome_iff_exists.mp (n1 a (by simp))
        have := hf k
        simp [hk] at this
      | cons b bs =>
        obtain ⟨k, hk⟩ := Option.isSome_iff_exists.mp (n1 a (by simp))
        obtain ⟨j, hj⟩ := Option.isSome_iff_exists.mp (n2 b (by simp))
        rw [List.pairwise_cons] at s1 s2
        have hkj : k = j := by
          have ha : a ∈ b :: bs := by
            have : a ∈ (b :: bs).filter fun x => num x = some k := by
              rw [← hf k]; exact List.mem_filter.mpr ⟨by simp, by simp [hk]⟩
            exact (List.mem_filter.mp this).1
          have hb : b ∈ a :: as := by
            have : b ∈ (a :: as).filter fun x => num x = some j := by
              rw [hf j]; exact List.mem_filter.mpr ⟨by simp, by simp [hj]⟩
            exact (List.mem_filter.mp this).1
          have h1 : j ≤ k := by
            rcases List.mem_cons.mp ha with rfl | ha
            · rw [hk] at hj; simp at hj; omega
            · obtain ⟨m, n, hm, hn, hmn⟩ := s2.1 a ha
              rw [hj] at hm; rw [hk] at hn; simp at hm hn; omega
          have h2 : k ≤ j := by
            rcases List.mem_cons.mp hb with rfl | hb
            · rw [hk] at hj; simp at hj; omega
            · obtain ⟨m, n, hm, hn, hmn⟩ := s1.1 b hb
              rw [hk] at hm; rw [hj] at hn; simp at hm hn; omega
          omega
        subst hkj
        have hab : a = b := by
          have := hf k
          simp [hk, hj] at this
          exact this.1
        subst hab
        congr 1
        refine ih s1.2 bs s2.2 (fun c hc => n1 c (by simp [hc])) (fun c hc => n2 c (by simp [hc])) ?_
        intro m
        have := hf m
        simp only [List.filter_cons] at this
        split at this
        · simpa using this
        · simpa using this

/-- A state in which references with these labels were added and `done` were written. -/
def withRefs (labels : List String) (done : List String) : St :=
  { addReferences {} (labels.map fun l => ⟨l.toList, "u".toList, []⟩) with
    output := "text\n".toList, emittedReferences := done.map String.toList }

example : (flushReferences (withRefs ["12", "b", "#3", "a", "b"] ["b"])).output =
    "text\n\n[a]: u\n[#3]: u\n[12]: u\n".toList := by decide +kernel
example : (flushReferences (withRefs ["7", "b", "a"] [])).output =
    "text\n\n[7]: u\n[b]: u\n[a]: u\n".toList := by decide +kernel
example : labelNumber "#18446744073709551616".toList = none ∧ labelNumber "#+07".toList = some 7 := by
  decide +kernel

/-! ### C18, C19, C21: runs of operations -/

/-- What the serializer does with references and footnotes, apart from other text it
writes: the calls of `push_str`, `add_reference`, `start_collecting`/`stop_collecting`,
`add` (footnote) and the three flushes (src/serializer/mod.rs:179-399,
src/serializer/state.rs:145-186, 448-459). -/
inductive RefOp where
  | text (s : List Char)
  | add (r : Ref)
  | collect (on : Bool) (line : Nat)
  | footnote (f : Footnote)
  | flushFootnotes (before : Option Nat)
  | flushReferences
  | flushFootnoteRefs (before : Option Nat)

def RefOp.run (cx : Cx) : RefOp → St → St
  | .text s, st => st.push s
  | .add r, st => addReference st r
  | .collect on line, st =>
    { st with footnotes := { st.footnotes with collecting := on, currentReferenceLine := line } }
  | .footnote f, st => addFootnote st f
  | .flushFootnotes b, st => flushFootnotesBefore cx b st
  | .flushReferences, st => Model.flushReferences st
  | .flushFootnoteRefs b, st => flushFootnoteRefsBefore b st

/-- A run from the empty state, ended by the flushes at the end of a document
(src/serializer/document.rs:221-223). -/
def runOps (cx : Cx) (ops : List RefOp) : St :=
  flushAll cx none (ops.foldl (fun st op => op.run cx st) {})

/-- The references added in a run. -/
def addedRefs (ops : List RefOp) : List Ref :=
  ops.filterMap fun | .add r => some r | _ => none

/-- The footnotes added in a run. -/
def addedFootnotes (ops : List RefOp) : List Footnote :=
  ops.filterMap fun | .footnote f => some f | _ => none

theorem refInv_ops (cx : Cx) (ops : List RefOp) : ∀ (A : List Ref) (F : List Footnote) (st : St),
    RefInv cx A F st →
    RefInv cx ((addedRefs ops).reverse ++ A) ((addedFootnotes ops).reverse ++ F)
      (ops.foldl (fun st op => op.run cx st) st) := by
  induction ops with
  | nil => intro A F st h; exact h
  | cons op ops ih =>
    intro A F st h
    rw [List.foldl_cons]
    cases op with
    | text s => exact ih A F _ (h.text s)
    | add r => simpa [addedRefs, addedFootnotes, RefOp.run] using ih (r :: A) F _ (h.add r)
    | collect on line => exact ih A F _ { h with }
    | footnote f => simpa [addedRefs, addedFootnotes, RefOp.run] using ih A (f :: F) _ (h.footnote f)
    | flushFootnotes b => exact ih A F _ (h.flushFootnotes b)
    | flushReferences => exact ih A F _ h.flushReferences
    | flushFootnoteRefs b => exact ih A F _ (h.flushFootnoteRefs b)

theorem refInv_run (cx : Cx) (ops : List RefOp) :
    RefInv cx (addedRefs ops).reverse (addedFootnotes ops).reverse (runOps cx ops) := by
  have := refInv_ops cx ops [] [] {} (refInv_empty cx)
  rw [List.append_nil, List.append_nil] at this
  exact this.flushAll none

/-- **C18.** Whatever happens in which order: no label is written twice. -/
theorem c18_once (cx : Cx) (ops : List RefOp) : (runOps cx ops).emittedReferences.Nodup :=
  (refInv_run cx ops).emN

/-- **C18.** Every label that was added has been written at the end: there is a definition
with this label in the output. -/
theorem c18_all (cx : Cx) (ops : List RefOp) (r : Ref) (h : r ∈ addedRefs ops) :
    r.label ∈ (runOps cx ops).emittedReferences ∧
      ∃ r' ∈ addedRefs ops, r'.label = r.label ∧ referenceText r' <:+: (runOps cx ops).output := by
  have inv := refInv_run cx ops
  obtain ⟨p1, p2, _⟩ := flushAll_none_pending cx (ops.foldl (fun st op => op.run cx st) {})
  have hm : r.label ∈ (runOps cx ops).emittedReferences := by
    rcases inv.cov r (by simpa using h) with h | h | h
    · exact h
    · rw [runOps, p1] at h; simp at h
    · rw [runOps, p2] at h; simp at h
  obtain ⟨r', h1, h2, h3⟩ := inv.emT _ hm
  exact ⟨hm, r', by simpa using h1, h2, h3⟩

/-- **C18.** Only the flushes write definitions, and `emittedReferences` records exactly
what they write: each step either leaves it alone or appends the labels of the
definitions that it appends to the output. -/
theorem c18_record (cx : Cx) (op : RefOp) (st : St) :
    (op.run cx st).emittedReferences = st.emittedReferences ∨
    ∃ (gap : List Char) (rs : List Ref), (op.run cx st).emittedReferences = st.emittedReferences ++ rs.map (·.label) ∧
      (op.run cx st).output = st.output ++ gap ++ (rs.map referenceText).flatten ∧
      ∀ r ∈ rs, (∃ k, (k, r) ∈ st.pendingReferences ∧ r.label ∉ st.emittedReferences) ∨
        ∃ k n, (k, (r, n)) ∈ st.footnotes.pendingReferences ∧ k ∉ st.emittedReferences := by
  cases op with
  | text s => exact .inl rfl
  | add r =>
    left
    simp only [RefOp.run, addReference]
    split <;> rfl
  | collect on line => exact .inl rfl
  | footnote f => exact .inl rfl
  | flushFootnotes b => left; simp only [RefOp.run, flushFootnotes_eq]
  | flushReferences =>
    right
    simp only [RefOp.run, flushReferences_eq]
    refine ⟨if refsOut st = [] then [] else gapOf st.output, refsOut st, rfl, ?_, ?_⟩
    · rw [groupText]
      split
      · rename_i h; simp [h]
      · simp
    · intro r hr
      obtain ⟨⟨e, he, rfl⟩, hn⟩ := refsOut_mem.mp hr
      exact .inl ⟨e.1, he, hn⟩
  | flushFootnoteRefs b =>
    right
    simp only [RefOp.run, flushFootnoteRefs_eq]
    refine ⟨if dueFnRefs b st = [] then [] else gapOf st.output, dueFnRefs b st, rfl, ?_, ?_⟩
    · rw [groupText]
      split
      · rename_i h; simp [h]
      · simp
    · intro r hr
      obtain ⟨e, he, rfl, hn, _⟩ := dueFnRefs_mem.mp hr
      exact .inr ⟨e.1, e.2.2, he, hn⟩

/-- A run with two references, one of them from a footnote and added twice. -/
def exOps : List RefOp :=
  [.collect true 1, .add ⟨"f".toList, "v".toList, []⟩, .collect false 0,
   .footnote ⟨"1".toList, "[f]".toList, 1, false⟩, .text "A[^1] [a]\n".toList,
   .add ⟨"a".toList, "u".toList, []⟩, .flushFootnotes (some 3), .flushReferences,
   .flushFootnoteRefs (some 3), .text "\nB [a] [f]\n".toList, .add ⟨"a".toList, "u".toList, []⟩,
   .add ⟨"f".toList, "v".toList, []⟩]

example : (runOps codeCx exOps).output =
    "A[^1] [a]\n\n[^1]: [f]\n\n[a]: u\n\n[f]: v\n\nB [a] [f]\n".toList := by decide +kernel
example : (runOps codeCx exOps).emittedReferences = ["a".toList, "f".toList] := by decide +kernel

/-- A paragraph with the given children. -/
def exPar (cs : List Node) : Node := .mk .paragraph ⟨1, 1, 1, 1⟩ cs

/-- A text node, and a link with some text. -/
def exText (s : String) : Node := .mk (.text s.toList) ⟨1, 1, 1, 1⟩ []
def exLink (s url : String) : Node := .mk (.link url.toList []) ⟨1, 1, 1, 1⟩ [exText s]

/-- A document. -/
def exDoc (cs : List Node) : Node := .mk .document ⟨1, 1, 1, 1⟩ cs

/-- **C19.** The general claim is false: two inline links with the same text but different
targets are both written as references with that text as the label, and the later
target wins. The first link of the document now points to the second one's target. -/
theorem c19_target_false :
    ¬ ∀ (cx : Cx) (doc : Node) (text url : List Char),
      (∃ ps, doc = .mk .document ⟨1, 1, 1, 1⟩ ps ∧ ∃ p ∈ ps, ∃ cs q, p = .mk .paragraph q cs ∧
        .mk (.link url []) ⟨1, 1, 1, 1⟩ [.mk (.text text) ⟨1, 1, 1, 1⟩ []] ∈ cs) →
      isExternalUrl url = true → (∀ c ∈ text, c.isAlphanum) →
      url <:+: (formatDoc cx doc).output := by
  intro h
  have := h codeCx (exDoc [exPar [exLink "here" "http://x", exText " ", exLink "here" "http://y"]])
    "here".toList "http://x".toList
    ⟨_, rfl, _, List.mem_singleton.mpr rfl, _, _, rfl, by simp [exLink, exText]⟩
    (by decide +kernel) (by decide +kernel)
  have e : (formatDoc codeCx (exDoc [exPar [exLink "here" "http://x", exText " ",
      exLink "here" "http://y"]])).output = "[here] [here]\n\n[here]: http://y\n".toList := by
    decide +kernel
  rw [e] at this
  exact absurd this (by decide +kernel)

/-- **C19 (partial).** Full statement: without the hypothesis that equal labels come with
equal targets (`c19_target_false`). What holds: then the definition of every added
reference is in the output. -/
theorem c19_target_partial (cx : Cx) (ops : List RefOp)
    (hc : ∀ r ∈ addedRefs ops, ∀ r' ∈ addedRefs ops, r.label = r'.label → r = r')
    (r : Ref) (h : r ∈ addedRefs ops) : referenceText r <:+: (runOps cx ops).output := by
  obtain ⟨_, r', h1, h2, h3⟩ := c18_all cx ops r h
  rw [hc r h r' h1 h2.symm]
  exact h3

/-! ### C21: footnotes -/

/-- **C21.** `flush_footnotes_before(Some(l))` writes, after a blank line, exactly the pending
footnotes not written before whose reference line is positive and before `l`, in the order
of `IsOutputOrder`; the other ones that were not written before stay pending in order. -/
theorem c21_flush (cx : Cx) (l : Nat) (st : St) :
    let fresh := st.footnotes.pending.filter fun e => e.1 ∉ st.footnotes.emitted
    let isDue := fun e : List Char × Footnote => 0 < e.2.referenceLine ∧ e.2.referenceLine < l
    ∃ fs, IsOutputOrder (fun f => number64 f.name) ((fresh.filter isDue).map (·.2)) fs ∧
      (flushFootnotesBefore cx (some l) st).footnotes.pending = fresh.filter (fun e => ¬ isDue e) ∧
      (flushFootnotesBefore cx (some l) st).footnotes.emitted =
        st.footnotes.emitted ++ fs.map (·.name) ∧
      (fs = [] → (flushFootnotesBefore cx (some l) st).output = st.output) ∧
      (fs ≠ [] → ∃ gap, IsGap st.output gap ∧ (flushFootnotesBefore cx (some l) st).output =
        st.output ++ gap ++ (fs.map (footnoteText cx)).flatten) := by
  have hf : (st.footnotes.pending.filter fun e => !decide (e.1 ∈ st.footnotes.emitted)) =
      st.footnotes.pending.filter fun e => !st.footnotes.emitted.contains e.1 := by
    congr 1; funext r; simp
  have hd : ∀ e : List Char × Footnote,
      decide (0 < e.2.referenceLine ∧ e.2.referenceLine < l) = dueBefore (some l) e.2.referenceLine := by
    intro e; simp [dueBefore]
  have hn : (fun f : Footnote => number64 f.name) = fun f => parseU64 f.name := by
    funext r; exact (parseU64_eq _).symm
  simp only [decide_not, hf, hn, hd]
  refine ⟨footnotesOut (some l) st, outputOrder_isOutputOrder _ _, ?_⟩
  rw [flushFootnotes_eq]
  refine ⟨rfl, rfl, fun h => by simp [h, groupText], fun h => ⟨gapOf st.output, gapOf_isGap _, ?_⟩⟩
  simp [groupText, h]

/-- **C21.** The flush at the end leaves no footnote pending. -/
theorem c21_final (cx : Cx) (st : St) : (flushFootnotesBefore cx none st).footnotes.pending = [] := by
  rw [flushFootnotes_eq]
  simp [keptFootnotes, dueBefore]

/-- **C21.** No footnote is written twice, whatever happens in which order. -/
theorem c21_once (cx : Cx) (ops : List RefOp) : (runOps cx ops).footnotes.emitted.Nodup :=
  (refInv_run cx ops).feN

/-- **C21.** Every footnote name has been written at the end, with the text of a footnote of
this name. -/
theorem c21_all (cx : Cx) (ops : List RefOp) (f : Footnote) (h : f ∈ addedFootnotes ops) :
    f.name ∈ (runOps cx ops).footnotes.emitted ∧
      ∃ f' ∈ addedFootnotes ops, f'.name = f.name ∧ footnoteText cx f' <:+: (runOps cx ops).output := by
  have inv := refInv_run cx ops
  obtain ⟨_, _, p3⟩ := flushAll_none_pending cx (ops.foldl (fun st op => op.run cx st) {})
  have hm : f.name ∈ (runOps cx ops).footnotes.emitted := by
    rcases inv.covF f (by simpa using h) with h | h
    · exact h
    · rw [runOps, p3] at h; simp at h
  obtain ⟨r', h1, h2, h3⟩ := inv.feT _ hm
  exact ⟨hm, r', by simpa using h1, h2, h3⟩

theorem gapOf_newlines (out : List Char) : ∀ c ∈ gapOf out, c = '\n' := by
  intro c hc
  unfold gapOf at hc
  split at hc
  · simp at hc
  · split at hc <;> simpa using hc

/-- **C18, C20, C21.** The flushes before line `b`: first the due footnotes, then all pending
references, then the due references of footnotes which were not defined before, and
between them nothing but line breaks. -/
theorem c20_sequence (cx : Cx) (b : Nat) (st : St) :
    ∃ (g1 g2 g3 : List Char) (fs : List Footnote) (rs qs : List Ref),
      (flushAll cx (some b) st).output = st.output ++ g1 ++ (fs.map (footnoteText cx)).flatten ++ g2 ++
        (rs.map referenceText).flatten ++ g3 ++ (qs.map referenceText).flatten ∧
      (∀ f, f ∈ fs ↔ ∃ k, (k, f) ∈ st.footnotes.pending ∧ k ∉ st.footnotes.emitted ∧
        0 < f.referenceLine ∧ f.referenceLine < b) ∧
      (∀ r, r ∈ rs ↔ ∃ k, (k, r) ∈ st.pendingReferences ∧ r.label ∉ st.emittedReferences) ∧
      (∀ r, r ∈ qs ↔ ∃ k n, (k, (r, n)) ∈ st.footnotes.pendingReferences ∧
        k ∉ st.emittedReferences ∧ k ∉ rs.map (·.label) ∧ 0 < n ∧ n < b) ∧
      (flushAll cx (some b) st).emittedReferences =
        st.emittedReferences ++ rs.map (·.label) ++ qs.map (·.label) ∧
      ∀ c ∈ g1 ++ g2 ++ g3, c = '\n' := by
  let s1 := flushFootnotesBefore cx (some b) st
  let s2 := flushReferences s1
  refine ⟨if footnotesOut (some b) st = [] then [] else gapOf st.output,
    if refsOut s1 = [] then [] else gapOf s1.output,
    if dueFnRefs (some b) s2 = [] then [] else gapOf s2.output,
    footnotesOut (some b) st, refsOut s1, dueFnRefs (some b) s2, ?_, ?_, ?_, ?_, ?_, ?_⟩
  · have hg : ∀ {α : Type} (out : List Char) (f : α → List Char) (xs : List α),
        groupText out f xs = (if xs = [] then [] else gapOf out) ++ (xs.map f).flatten := by
      intro α out f xs
      rw [groupText]
      split
      · rename_i h; simp [h]
      · rfl
    have e1 : s1.output = st.output ++ groupText st.output (footnoteText cx) (footnotesOut (some b) st) := by
      simp only [s1]; rw [flushFootnotes_eq]
    have e2 : s2.output = s1.output ++ groupText s1.output referenceText (refsOut s1) := by
      simp only [s2]; rw [flushReferences_eq]
    have e3 : (flushAll cx (some b) st).output =
        s2.output ++ groupText s2.output referenceText (dueFnRefs (some b) s2) := by
      show (flushFootnoteRefsBefore (some b) s2).output = _
      rw [flushFootnoteRefs_eq]
    rw [e3, hg s2.output, e2, hg s1.output]
    generalize (if refsOut s1 = [] then [] else gapOf s1.output) = g2
    rw [e1, hg st.output]
    simp only [List.append_assoc]
  · intro f
    rw [dueFootnotes_mem]
    constructor
    · rintro ⟨e, he, rfl, h1, h2⟩
      simp only [dueBefore, Bool.and_eq_true, decide_eq_true_eq] at h2
      exact ⟨e.1, he, h1, h2⟩
    · rintro ⟨k, hk, h1, h2⟩
      exact ⟨(k, f), hk, rfl, h1, by simpa [dueBefore] using h2⟩
  · intro r
    rw [refsOut_mem]
    have e1 : s1.pendingReferences = st.pendingReferences ∧
        s1.emittedReferences = st.emittedReferences := by
      simp only [s1]; rw [flushFootnotes_eq]; exact ⟨rfl, rfl⟩
    rw [e1.1, e1.2]
    constructor
    · rintro ⟨⟨e, he, rfl⟩, h⟩; exact ⟨e.1, he, h⟩
    · rintro ⟨k, hk, h⟩; exact ⟨⟨(k, r), hk, rfl⟩, h⟩
  · intro r
    rw [dueFnRefs_mem]
    have e2 : s2.footnotes.pendingReferences = st.footnotes.pendingReferences ∧
        s2.emittedReferences = st.emittedReferences ++ (refsOut s1).map (·.label) := by
      simp only [s2, s1]; rw [flushReferences_eq, flushFootnotes_eq]; exact ⟨rfl, rfl⟩
    rw [e2.1, e2.2]
    constructor
    · rintro ⟨e, he, rfl, h1, h2⟩
      rw [List.mem_append, not_or] at h1
      simp only [dueBefore, Bool.and_eq_true, decide_eq_true_eq] at h2
      exact ⟨e.1, e.2.2, he, h1.1, h1.2, h2⟩
    · rintro ⟨k, n, hk, h1, h2, h3⟩
      exact ⟨(k, (r, n)), hk, rfl, by rw [List.mem_append, not_or]; exact ⟨h1, h2⟩,
        by simpa [dueBefore] using h3⟩
  · show (flushFootnoteRefsBefore (some b) s2).emittedReferences = _
    rw [flushFootnoteRefs_eq]
    have : s2.emittedReferences = st.emittedReferences ++ (refsOut s1).map (·.label) := by
      simp only [s2, s1]; rw [flushReferences_eq, flushFootnotes_eq]
    rw [this]
  · intro c hc
    rcases List.mem_append.mp hc with hc | hc
    · rcases List.mem_append.mp hc with hc | hc
      · split at hc
        · simp at hc
        · exact gapOf_newlines _ c hc
      · split at hc
        · simp at hc
        · exact gapOf_newlines _ c hc
    · split at hc
      · simp at hc
      · exact gapOf_newlines _ c hc

/-- A footnote that is pending with the given reference line. -/
def exFn (name : String) (line : Nat) : List Char × Footnote :=
  (name.toList, ⟨name.toList, "x".toList, line, false⟩)

example : let st : St := { output := "t\n".toList, footnotes := { pending :=
      [exFn "b" 2, exFn "2" 3, exFn "z" 9, exFn "1" 4, exFn "n" 0], emitted := ["b".toList] } }
    (flushFootnotesBefore codeCx (some 9) st).output = "t\n\n[^1]: x\n[^2]: x\n".toList ∧
    (flushFootnotesBefore codeCx (some 9) st).footnotes.pending = [exFn "z" 9, exFn "n" 0] := by
  decide +kernel

/-! ### C22: writing a footnote -/

/-- **C22.** The general claim is false: a long name makes the subtraction in
`write_footnote` underflow, at the default width already. -/
theorem c22_underflow_false :
    ¬ ∀ (cx : Cx) (f : Footnote), 8 ≤ cx.opts.lineWidth →
      (writeFootnote cx {} f).panicked = false := by
  intro h
  exact absurd (h codeCx ⟨List.replicate 76 'a', [], 0, false⟩ (by decide)) (by decide +kernel)

/-- **C22 (partial).** Full statement: without the hypothesis that the label of the footnote
fits into the line (`c22_underflow_false`). What holds: a footnote without blocks whose
label fits is written without underflow; its lines have the words of the content in
order, single spaced; the first line comes after the label, the others after as many
spaces as the label has bytes; the lines are filled up to the line width. -/
theorem c22_words_partial (cx : Cx) (f : Footnote) (st : St) (hw : WidthOk cx.width)
    (hb : f.hasBlocks = false)
    (h1 : cx.width ("[^".toList ++ f.name ++ "]: ".toList) ≤ cx.opts.lineWidth)
    (h2 : byteLen f.name + 5 ≤ cx.opts.lineWidth) :
    (writeFootnote cx st f).panicked = st.panicked ∧
    ∃ ls : List (List (List Char)), ls.flatten = words f.content ∧ (ls = [[]] ∨ [] ∉ ls) ∧ ls ≠ [] ∧
      (writeFootnote cx st f).output = st.output ++
        (layout ("[^".toList ++ f.name ++ "]: ".toList) (List.replicate (byteLen f.name + 5) ' ')
          (ls.map (joinWith [' ']))).flatMap (· ++ ['\n']) ∧
      Filled cx.width cx.opts.lineWidth ("[^".toList ++ f.name ++ "]: ".toList)
        (List.replicate (byteLen f.name + 5) ' ') ls := by
  have hp : "[^".toList ++ f.name ++ "]: ".toList = footnotePrefix f.name := rfl
  have hl : byteLen (footnotePrefix f.name) = byteLen f.name + 5 := by
    simp only [footnotePrefix, byteLen, List.map_append, List.sum_append]
    have : (List.map utf8Len ['[', '^']).sum = 2 := by decide
    have : (List.map utf8Len [']', ':', ' ']).sum = 3 := by decide
    omega
  rw [hp] at h1 ⊢
  constructor
  · have h3 : ¬ cx.opts.lineWidth < cx.width (footnotePrefix f.name) := by omega
    have h4 : ¬ cx.opts.lineWidth < byteLen (footnotePrefix f.name) := by omega
    simp [writeFootnote, footnoteUnderflow, hb, h3, h4, St.push]
  · have ho : (writeFootnote cx st f).output = st.output ++ footnoteText cx f := rfl
    rw [ho, words_eq_splitWs]
    simp only [footnoteText, hb, hl]
    rw [if_neg (by simp)]
    generalize hws : splitWs (softToSpace f.content) = ws
    have hnil : [] ∉ ws := hws ▸ wordsGo_no_nil _ []
    cases ws with
    | nil =>
      refine ⟨[[]], rfl, .inl rfl, by simp, ?_, ?_⟩
      · rw [if_pos rfl]; simp [layout, joinWith]
      · simp only [Filled]
        right
        rw [show joinWith [' '] [] = [] from rfl, List.append_nil]
        exact h1
    | cons x ws =>
      rw [if_neg (by simp), layout_mapIdx]
      have hx : x ≠ [] := fun h => hnil (by simp [h])
      obtain ⟨l, ls, g1, g2, g3, _, g5⟩ := fillWords_spec hw
        (cx.opts.lineWidth - cx.width (footnotePrefix f.name))
        (cx.opts.lineWidth - (byteLen f.name + 5)) ws true [x] (by simp) (by simp [Ne.symm hx])
        (fun h => hnil (by simp [h])) (by simp)
      refine ⟨l :: ls, by simpa using g2, .inr fun h => g3 _ h rfl, by simp, ?_, ?_⟩
      · rw [fillWords, if_pos rfl]
        rw [show joinWith [' '] [x] = x from rfl] at g1
        rw [g1]
        rfl
      · have hs : cx.width (List.replicate (byteLen f.name + 5) ' ') = byteLen f.name + 5 :=
          width_spaces hw _
        refine filled_of_filledW hw (footnotePrefix_pfxOk _) (.inr (by simp [List.getLast?_replicate])) h1
          (by omega) _ ?_
        rw [hs]
        simpa using g5

example : (writeFootnote { codeCx with opts := { defaultOptions with lineWidth := 14 } } {}
    ⟨"ab".toList, "one two  three\x00four".toList, 0, false⟩).output =
    "[^ab]: one two\n       three\n       four\n".toList := by decide +kernel

/-! ### C61: link targets -/

/-- **C61.** The general claim is false for reference definitions: a destination with a space
in it is written without angle brackets, so that the line is no definition any more. -/
theorem c61_definition_false :
    ¬ ∀ r : Ref, plainLabel r.label = true → plainTitle r.title = true →
      ∃ line, referenceText r = line ++ ['\n'] ∧
        readDefinition line = some (r.label, r.url, r.title) := by
  intro h
  obtain ⟨line, h1, h2⟩ := h ⟨"a".toList, "b c".toList, []⟩ (by decide) (by decide)
  have : line = "[a]: b c".toList := by
    have e : referenceText ⟨"a".toList, "b c".toList, []⟩ = "[a]: b c".toList ++ ['\n'] := by
      decide +kernel
    rw [e] at h1
    exact (List.append_inj_left' h1 rfl).symm
  rw [this] at h2
  exact absurd h2 (by decide +kernel)

/-- **C61.** Nor does it hold for titles with a quotation mark. -/
theorem c61_title_false :
    ¬ ∀ r : Ref, plainLabel r.label = true → plainUrl r.url = true →
      ∃ line, referenceText r = line ++ ['\n'] ∧
        readDefinition line = some (r.label, r.url, r.title) := by
  intro h
  obtain ⟨line, h1, h2⟩ := h ⟨"a".toList, "b".toList, "x\"y".toList⟩ (by decide) (by decide)
  have : line = "[a]: b \"x\"y\"".toList := by
    have e : referenceText ⟨"a".toList, "b".toList, "x\"y".toList⟩ =
        "[a]: b \"x\"y\"".toList ++ ['\n'] := by decide +kernel
    rw [e] at h1
    exact (List.append_inj_left' h1 rfl).symm
  rw [this] at h2
  exact absurd h2 (by decide +kernel)

/-- **C61 (partial).** Full statement: for all labels, destinations and titles
(`c61_definition_false`, `c61_title_false`). What holds: a definition of which no part
needs escapes or angle brackets reads back as label, destination and title. -/
theorem c61_definition_partial (r : Ref) (hl : plainLabel r.label = true)
    (hu : plainUrl r.url = true) (ht : plainTitle r.title = true) :
    ∃ line, referenceText r = line ++ ['\n'] ∧
      readDefinition line = some (r.label, r.url, r.title) := readDefinition_plain hl hu ht

/-- **C61 (partial).** The same for inline links and images: the part after the text reads
back as destination and title, whatever comes after it. The general claim is refuted by
the same destinations. -/
theorem c61_inline_partial (bang text url title rest : List Char) (hu : plainUrl url = true)
    (ht : plainTitle title = true) :
    ∃ tail, formatInlineLink bang text url title = bang ++ '[' :: text ++ ']' :: tail ∧
      readInlineTarget (tail ++ rest) = some ((url, title), rest) := by
  refine ⟨'(' :: (url ++ titlePart title ++ [')']), by simp [formatInlineLink], ?_⟩
  have := readInlineTarget_plain rest hu ht
  simpa using this

/-- **C61.** An inline link with an unbalanced parenthesis in its destination is cut off. -/
theorem c61_inline_false :
    ¬ ∀ (text url : List Char), url ≠ [] → (∀ c ∈ url, c ≠ ' ') →
      ∃ tail, formatInlineLink [] text url [] = '[' :: text ++ ']' :: tail ∧
        readInlineTarget tail = some ((url, []), []) := by
  intro h
  obtain ⟨tail, h1, h2⟩ := h [] "a)b".toList (by decide) (by decide)
  have : tail = "(a)b)".toList := by
    have e : formatInlineLink [] [] "a)b".toList [] = '[' :: [] ++ ']' :: "(a)b)".toList := by
      decide +kernel
    rw [e] at h1
    simpa using h1.symm
  rw [this] at h2
  exact absurd h2 (by decide +kernel)

example : readDefinition "[a b]: http://x/(y) \"some title\"".toList =
    some ("a b".toList, "http://x/(y)".toList, "some title".toList) := by decide +kernel
example : readDefinition "[a]: <b c>".toList = some ("a".toList, "b c".toList, []) := by
  decide +kernel
example : readInlineTarget "(x \"t\") and".toList = some (("x".toList, "t".toList), " and".toList) := by
  decide +kernel

/-! ### C62: footnotes with blocks -/

/-- **C62.** The general claim is false: with a name of three characters the continuation
lines are indented by eight columns, of which a reader takes off only four. The second
paragraph of such a footnote turns into indented code. -/
theorem c62_blocks_false :
    ¬ ∀ (cx : Cx) (name : List Char) (ls : List (List Char)), ls ≠ [] →
      AreLines ls → (∀ l ∈ ls, l.head? ≠ some ' ') →
      ∃ body, footnoteBody name (lines (footnoteText cx ⟨name, joinWith ['\n'] ls, 0, true⟩)) =
        some body ∧ ∀ l ∈ body, isIndentedCode l = false := by
  intro h
  obtain ⟨body, h2, h3⟩ := h codeCx "abc".toList ["x".toList, [], "y".toList] (by simp)
    (by unfold AreLines; decide) (by decide)
  have : footnoteBody "abc".toList (lines (footnoteText codeCx
      ⟨"abc".toList, joinWith ['\n'] ["x".toList, [], "y".toList], 0, true⟩)) =
      some ["x".toList, [], "    y".toList] := by decide +kernel
  rw [this] at h2
  simp only [Option.some.injEq] at h2
  subst h2
  exact absurd (h3 "    y".toList (by simp)) (by decide)

/-- **C62 (partial).** Full statement: a reader gets back lines none of which is indented code
if none was (`c62_blocks_false` refutes it for names of three or more bytes). What holds:
the reader gets back the first line as it is and the others with `byteLen name + 1`
spaces before them; blank lines stay blank. With names of at most two bytes that is less
than the four spaces of indented code. -/
theorem c62_blocks_partial (cx : Cx) (name l : List Char) (ls : List (List Char))
    (hn : '\n' ∉ name) (hl : AreLines (l :: ls)) (hlast : (l :: ls).getLast? ≠ some []) :
    footnoteBody name (lines (footnoteText cx ⟨name, joinWith ['\n'] (l :: ls), 0, true⟩)) =
      some (l :: ls.map fun x => if x = [] then [] else List.replicate (byteLen name + 1) ' ' ++ x) := by
  have hb : byteLen (footnotePrefix name) = byteLen name + 5 := by
    simp only [footnotePrefix, byteLen, List.map_append, List.sum_append]
    have : (List.map utf8Len ['[', '^']).sum = 2 := by decide
    have : (List.map utf8Len [']', ':', ' ']).sum = 3 := by decide
    omega
  have h0 : lines (joinWith ['\n'] (l :: ls)) = l :: ls := lines_joinWith hl hlast
  have ht : footnoteText cx ⟨name, joinWith ['\n'] (l :: ls), 0, true⟩ =
      unlines ((footnotePrefix name ++ l) :: ls.map fun x =>
        if x = [] then [] else spaces (byteLen name + 5) ++ x) := by
    simp only [footnoteText, if_true, h0, hb, footnoteBlockLines, unlines]
    congr 1
    simp only [List.mapIdx_cons, if_true, List.map_cons, List.map_map]
    congr 1
    apply List.ext_getElem
    · simp
    · intro i h1 h2
      simp
  have hal : AreLines ((footnotePrefix name ++ l) :: ls.map fun x =>
        if x = [] then [] else spaces (byteLen name + 5) ++ x) := by
    intro x hx
    rcases List.mem_cons.mp hx with rfl | hx
    · have := hl l (by simp)
      constructor
      · simp [footnotePrefix, hn, this.1]
      · rw [List.getLast?_append]
        cases h : l.getLast? with
        | none => rw [footnotePrefix, List.getLast?_append]; simp
        | some c => rw [h] at this; simpa using this.2
    · obtain ⟨y, hy, rfl⟩ := List.mem_map.mp hx
      have := hl y (by simp [hy])
      split
      · simp
      · constructor
        · simp [spaces, this.1]
        · rename_i hne
          rw [List.getLast?_append]
          cases h : y.getLast? with
          | none => exact absurd (List.getLast?_eq_none_iff.mp h) hne
          | some c => rw [h] at this; simpa using this.2
  rw [ht, lines_unlines hal, footnoteBody]
  have hp : ['[', '^'] ++ name ++ [']', ':', ' '] = footnotePrefix name := rfl
  simp only [hp]
  rw [if_pos (List.isPrefixOf_iff_prefix.mpr ⟨l, rfl⟩)]
  rw [List.drop_left]
  have : ((ls.map fun x => if x = [] then [] else spaces (byteLen name + 5) ++ x).mapM fun l =>
        if l = [] then some []
        else if (spaces 4).isPrefixOf l then some (l.drop 4) else none) =
      some (ls.map fun x => if x = [] then [] else List.replicate (byteLen name + 1) ' ' ++ x) := by
    clear hal ht h0 hlast hl
    induction ls with
    | nil => rfl
    | cons x ls ih =>
      rw [List.map_cons, List.mapM_cons, ih, List.map_cons]
      by_cases hx : x = []
      · simp [hx]
      · have h1 : spaces (byteLen name + 5) ++ x = spaces 4 ++ (spaces (byteLen name + 1) ++ x) := by
          simp [spaces, List.replicate_succ]
        have h2 : (spaces 4).isPrefixOf (spaces 4 ++ (spaces (byteLen name + 1) ++ x)) = true :=
          List.isPrefixOf_iff_prefix.mpr ⟨_, rfl⟩
        have h3 : (spaces 4 ++ (spaces (byteLen name + 1) ++ x)).drop 4 = spaces (byteLen name + 1) ++ x := rfl
        rw [if_neg hx, h1, if_neg (by simp [spaces]), if_pos h2, h3, if_neg hx]
        rfl
  rw [this]
  rfl

example : footnoteText codeCx ⟨"1".toList, "a\n\n~~~~\nb\n~~~~".toList, 0, true⟩ =
    "[^1]: a\n\n      ~~~~\n      b\n      ~~~~\n".toList := by decide +kernel

end Hongdown.Props
