import Verif.Lemmas.Refs

set_option linter.unusedSimpArgs false

namespace Hongdown
open Model Spec

/-! ### Maps in insertion order -/

theorem mapInsert_mem {β : Type} {k : List Char} {v : β} {m : List (List Char × β)}
    {e : List Char × β} (h : e ∈ mapInsert k v m) : e = (k, v) ∨ e ∈ m := by
  induction m with
  | nil => left; simpa [mapInsert] using h
  | cons x m ih =>
    rw [mapInsert] at h
    split at h
    · rcases List.mem_cons.mp h with h | h
      · exact .inl h
      · exact .inr (by simp [h])
    · rcases List.mem_cons.mp h with h | h
      · exact .inr (by simp [h])
      · rcases ih h with h | h
        · exact .inl h
        · exact .inr (by simp [h])

theorem mapInsert_keys {β : Type} (k : List Char) (v : β) (m : List (List Char × β)) :
    (mapInsert k v m).map (·.1) = if k ∈ m.map (·.1) then m.map (·.1) else m.map (·.1) ++ [k] := by
  induction m with
  | nil => simp [mapInsert]
  | cons x m ih =>
    rw [mapInsert]
    split
    · rename_i h; simp [h]
    · rename_i h
      rw [List.map_cons, ih]
      have h' : k ≠ x.1 := fun hc => h hc.symm
      by_cases hm : k ∈ m.map (·.1)
      · rw [if_pos hm, if_pos (by simp only [List.map_cons, List.mem_cons]; exact .inr hm),
          List.map_cons]
      · rw [if_neg hm, if_neg (by simp only [List.map_cons, List.mem_cons]; exact fun hc => hc.elim h' hm),
          List.map_cons]
        rfl

theorem mapInsert_nodup {β : Type} (k : List Char) (v : β) {m : List (List Char × β)}
    (h : (m.map (·.1)).Nodup) : ((mapInsert k v m).map (·.1)).Nodup := by
  rw [mapInsert_keys]
  split
  · exact h
  · rename_i hn
    rw [List.nodup_append]
    exact ⟨h, by simp, fun a ha b hb => by
      simp only [List.mem_singleton] at hb
      subst hb
      exact fun hc => hn (hc ▸ ha)⟩

theorem mapInsert_key_mem {β : Type} (k : List Char) (v : β) (m : List (List Char × β)) (l : List Char) :
    l ∈ (mapInsert k v m).map (·.1) ↔ l = k ∨ l ∈ m.map (·.1) := by
  rw [mapInsert_keys]
  split
  · rename_i h
    constructor
    · exact .inr
    · rintro (rfl | h')
      · exact h
      · exact h'
  · simp only [List.mem_append, List.mem_singleton]
    exact or_comm

/-! ### The invariant -/

/-- What is true along a run in which the references `A` were added and the footnotes `F`
were defined. -/
structure RefInv (cx : Cx) (A : List Ref) (F : List Footnote) (st : St) : Prop where
  emN : st.emittedReferences.Nodup
  pN : (st.pendingReferences.map (·.1)).Nodup
  pL : ∀ e ∈ st.pendingReferences, e.1 = e.2.label ∧ e.2 ∈ A
  qN : (st.footnotes.pendingReferences.map (·.1)).Nodup
  qL : ∀ e ∈ st.footnotes.pendingReferences, e.1 = e.2.1.label ∧ e.2.1 ∈ A
  fN : (st.footnotes.pending.map (·.1)).Nodup
  fL : ∀ e ∈ st.footnotes.pending, e.1 = e.2.name ∧ e.2 ∈ F
  feN : st.footnotes.emitted.Nodup
  emT : ∀ l ∈ st.emittedReferences, ∃ r ∈ A, r.label = l ∧ referenceText r <:+: st.output
  feT : ∀ n ∈ st.footnotes.emitted, ∃ f ∈ F, f.name = n ∧ footnoteText cx f <:+: st.output
  cov : ∀ r ∈ A, r.label ∈ st.emittedReferences ∨ r.label ∈ st.pendingReferences.map (·.1) ∨
    r.label ∈ st.footnotes.pendingReferences.map (·.1)
  covF : ∀ f ∈ F, f.name ∈ st.footnotes.emitted ∨ f.name ∈ st.footnotes.pending.map (·.1)

theorem refInv_empty (cx : Cx) : RefInv cx [] [] {} := by
  constructor <;> simp

theorem infix_append_left {a b : List Char} (h : a <:+: b) (c : List Char) : a <:+: b ++ c := by
  obtain ⟨s, t, rfl⟩ := h
  exact ⟨s, t ++ c, by simp⟩

theorem infix_of_prefix {a b c : List Char} (h : a <:+: b) (hp : b <+: c) : a <:+: c := by
  obtain ⟨t, rfl⟩ := hp
  exact infix_append_left h t

theorem infix_flatten {α : Type} (f : α → List Char) {x : α} {xs : List α} (h : x ∈ xs)
    (a : List Char) : f x <:+: a ++ (xs.map f).flatten := by
  induction xs generalizing a with
  | nil => simp at h
  | cons y ys ih =>
    rw [List.map_cons, List.flatten_cons]
    rcases List.mem_cons.mp h with rfl | h
    · exact ⟨a, (ys.map f).flatten, by simp⟩
    · rw [← List.append_assoc]
      exact ih h _

theorem infix_group {α : Type} (f : α → List Char) {x : α} {xs : List α} (h : x ∈ xs)
    (out : List Char) : f x <:+: out ++ groupText out f xs := by
  rw [groupText, if_neg (List.ne_nil_of_mem h), ← List.append_assoc]
  exact infix_flatten f h _

section
variable {cx : Cx} {A : List Ref} {F : List Footnote} {st : St}

theorem RefInv.text (h : RefInv cx A F st) (s : List Char) : RefInv cx A F (st.push s) :=
  { h with
    emT := fun l hl => by
      obtain ⟨r, h1, h2, h3⟩ := h.emT l hl
      exact ⟨r, h1, h2, infix_append_left h3 s⟩
    feT := fun l hl => by
      obtain ⟨r, h1, h2, h3⟩ := h.feT l hl
      exact ⟨r, h1, h2, infix_append_left h3 s⟩ }

theorem RefInv.add (h : RefInv cx A F st) (r : Ref) : RefInv cx (r :: A) F (addReference st r) := by
  rw [addReference]
  split
  · refine { h with pL := ?_, qN := ?_, qL := ?_, emT := ?_, cov := ?_ }
    · exact fun e he => ⟨(h.pL e he).1, by simp [(h.pL e he).2]⟩
    · exact mapInsert_nodup _ _ h.qN
    · intro e he
      rcases mapInsert_mem he with rfl | he
      · exact ⟨rfl, by simp⟩
      · exact ⟨(h.qL e he).1, by simp [(h.qL e he).2]⟩
    · intro l hl
      obtain ⟨r', h1, h2, h3⟩ := h.emT l hl
      exact ⟨r', by simp [h1], h2, h3⟩
    · intro r' hr
      simp only [mapInsert_key_mem]
      rcases List.mem_cons.mp hr with rfl | hr
      · exact .inr (.inr (.inl rfl))
      · rcases h.cov r' hr with h | h | h
        · exact .inl h
        · exact .inr (.inl h)
        · exact .inr (.inr (.inr h))
  · refine { h with pN := ?_, pL := ?_, qL := ?_, emT := ?_, cov := ?_ }
    · exact mapInsert_nodup _ _ h.pN
    · intro e he
      rcases mapInsert_mem he with rfl | he
      · exact ⟨rfl, by simp⟩
      · exact ⟨(h.pL e he).1, by simp [(h.pL e he).2]⟩
    · exact fun e he => ⟨(h.qL e he).1, by simp [(h.qL e he).2]⟩
    · intro l hl
      obtain ⟨r', h1, h2, h3⟩ := h.emT l hl
      exact ⟨r', by simp [h1], h2, h3⟩
    · intro r' hr
      simp only [mapInsert_key_mem]
      rcases List.mem_cons.mp hr with rfl | hr
      · exact .inr (.inl (.inl rfl))
      · rcases h.cov r' hr with h | h | h
        · exact .inl h
        · exact .inr (.inl (.inr h))
        · exact .inr (.inr h)

/-- `FootnoteSet::add` (src/serializer/state.rs:163-165). -/
def addFootnote (st : St) (f : Footnote) : St :=
  { st with footnotes := { st.footnotes with
      pending := mapInsert f.name f st.footnotes.pending } }

theorem RefInv.footnote (h : RefInv cx A F st) (f : Footnote) :
    RefInv cx A (f :: F) (addFootnote st f) := by
  refine { h with fN := ?_, fL := ?_, feT := ?_, covF := ?_ }
  · exact mapInsert_nodup _ _ h.fN
  · intro e he
    rcases mapInsert_mem he with rfl | he
    · exact ⟨rfl, by simp⟩
    · exact ⟨(h.fL e he).1, by simp [(h.fL e he).2]⟩
  · intro l hl
    obtain ⟨r', h1, h2, h3⟩ := h.feT l hl
    exact ⟨r', by simp [h1], h2, h3⟩
  · intro f' hf
    simp only [addFootnote, mapInsert_key_mem]
    rcases List.mem_cons.mp hf with rfl | hf
    · exact .inr (.inl rfl)
    · rcases h.covF f' hf with h | h
      · exact .inl h
      · exact .inr (.inr h)

theorem refsOut_mem {r : Ref} : r ∈ refsOut st ↔
    (∃ e ∈ st.pendingReferences, e.2 = r) ∧ r.label ∉ st.emittedReferences := by
  rw [refsOut, (outputOrder_isOutputOrder _ _).perm.mem_iff, freshRefs]
  simp

theorem RefInv.flushReferences (h : RefInv cx A F st) : RefInv cx A F (flushReferences st) := by
  rw [flushReferences_eq]
  refine { h with emN := ?_, pN := by simp, pL := by simp, emT := ?_, feT := ?_, cov := ?_ }
  · rw [List.nodup_append]
    refine ⟨h.emN, ?_, ?_⟩
    · have hp : ((refsOut st).map (·.label)).Perm ((freshRefs st).map (·.label)) :=
        (outputOrder_isOutputOrder _ _).perm.map _
      rw [hp.nodup_iff]
      have e : (st.pendingReferences.map (·.2)).map (·.label) = st.pendingReferences.map (·.1) := by
        rw [List.map_map]
        apply List.map_congr_left
        intro e he
        exact (h.pL e he).1.symm
      have := h.pN
      rw [← e] at this
      exact List.Sublist.nodup ((List.filter_sublist (l := st.pendingReferences.map (·.2))).map _) this
    · intro a ha b hb hab
      subst hab
      obtain ⟨r, hr, rfl⟩ := List.mem_map.mp hb
      exact (refsOut_mem.mp hr).2 ha
  · intro l hl
    rcases List.mem_append.mp hl with hl | hl
    · obtain ⟨r, h1, h2, h3⟩ := h.emT l hl
      exact ⟨r, h1, h2, infix_append_left h3 _⟩
    · obtain ⟨r, hr, rfl⟩ := List.mem_map.mp hl
      obtain ⟨⟨e, he, rfl⟩, _⟩ := refsOut_mem.mp hr
      exact ⟨e.2, (h.pL e he).2, rfl, infix_group _ hr _⟩
  · intro l hl
    obtain ⟨r, h1, h2, h3⟩ := h.feT l hl
    exact ⟨r, h1, h2, infix_append_left h3 _⟩
  · intro r hr
    rcases h.cov r hr with h' | h' | h'
    · exact .inl (by simp [h'])
    · by_cases hm : r.label ∈ st.emittedReferences
      · exact .inl (by simp [hm])
      · left
        obtain ⟨e, he, h2⟩ := List.mem_map.mp h'
        have hl := (h.pL e he).1
        rw [List.mem_append]
        right
        rw [List.mem_map]
        exact ⟨e.2, refsOut_mem.mpr ⟨⟨e, he, rfl⟩, by rw [← hl, h2]; exact hm⟩, by rw [← hl, h2]⟩
    · exact .inr (.inr h')

theorem dueFnRefs_mem {b : Option Nat} {r : Ref} : r ∈ dueFnRefs b st ↔
    ∃ e ∈ st.footnotes.pendingReferences, e.2.1 = r ∧ e.1 ∉ st.emittedReferences ∧
      dueBefore b e.2.2 = true := by
  simp only [dueFnRefs, List.mem_map, List.mem_filter]
  constructor
  · rintro ⟨e, ⟨⟨h1, h2⟩, h3⟩, rfl⟩
    exact ⟨e, h1, rfl, by simpa using h2, h3⟩
  · rintro ⟨e, h1, rfl, h2, h3⟩
    exact ⟨e, ⟨⟨h1, by simpa using h2⟩, h3⟩, rfl⟩

theorem keptFnRefs_mem {b : Option Nat} {e : List Char × (Ref × Nat)} : e ∈ keptFnRefs b st ↔
    e ∈ st.footnotes.pendingReferences ∧ e.1 ∉ st.emittedReferences ∧ dueBefore b e.2.2 = false := by
  simp only [keptFnRefs, List.mem_filter]
  simp [and_assoc]

theorem RefInv.flushFootnoteRefs (h : RefInv cx A F st) (b : Option Nat) :
    RefInv cx A F (flushFootnoteRefsBefore b st) := by
  rw [flushFootnoteRefs_eq]
  have hsub : ∀ p : (List Char × (Ref × Nat)) → Bool,
      ((st.footnotes.pendingReferences.filter fun e => !st.emittedReferences.contains e.1).filter p).Sublist
        st.footnotes.pendingReferences := fun p =>
    (List.filter_sublist).trans List.filter_sublist
  refine { h with emN := ?_, qN := ?_, qL := ?_, emT := ?_, feT := ?_, cov := ?_ }
  · rw [List.nodup_append]
    refine ⟨h.emN, ?_, ?_⟩
    · have e : (dueFnRefs b st).map (·.label) =
          ((st.footnotes.pendingReferences.filter fun e => !st.emittedReferences.contains e.1).filter
            fun e => dueBefore b e.2.2).map (·.1) := by
        rw [dueFnRefs, List.map_map]
        apply List.map_congr_left
        intro e he
        exact (h.qL e ((hsub _).subset he)).1.symm
      rw [e]
      exact List.Sublist.nodup ((hsub _).map _) h.qN
    · intro a ha c hc hac
      subst hac
      obtain ⟨r, hr, rfl⟩ := List.mem_map.mp hc
      obtain ⟨e, he, rfl, h1, _⟩ := dueFnRefs_mem.mp hr
      rw [← (h.qL e he).1] at ha
      exact h1 ha
  · exact List.Sublist.nodup ((hsub _).map _) h.qN
  · intro e he
    exact h.qL e (keptFnRefs_mem.mp he).1
  · intro l hl
    rcases List.mem_append.mp hl with hl | hl
    · obtain ⟨r, h1, h2, h3⟩ := h.emT l hl
      exact ⟨r, h1, h2, infix_append_left h3 _⟩
    · obtain ⟨r, hr, rfl⟩ := List.mem_map.mp hl
      obtain ⟨e, he, rfl, _⟩ := dueFnRefs_mem.mp hr
      exact ⟨e.2.1, (h.qL e he).2, rfl, infix_group _ hr _⟩
  · intro l hl
    obtain ⟨r, h1, h2, h3⟩ := h.feT l hl
    exact ⟨r, h1, h2, infix_append_left h3 _⟩
  · intro r hr
    rcases h.cov r hr with h' | h' | h'
    · exact .inl (by simp [h'])
    · exact .inr (.inl h')
    · by_cases hm : r.label ∈ st.emittedReferences
      · exact .inl (by simp [hm])
      · obtain ⟨e, he, h2⟩ := List.mem_map.mp h'
        have hl := (h.qL e he).1
        by_cases hd : dueBefore b e.2.2 = true
        · left
          rw [List.mem_append]
          right
          rw [List.mem_map]
          exact ⟨e.2.1, dueFnRefs_mem.mpr ⟨e, he, rfl, by rw [h2]; exact hm, hd⟩, by rw [← hl, h2]⟩
        · right; right
          rw [List.mem_map]
          exact ⟨e, keptFnRefs_mem.mpr ⟨he, by rw [h2]; exact hm, by simpa using hd⟩, h2⟩

theorem dueFootnotes_mem {b : Option Nat} {f : Footnote} : f ∈ footnotesOut b st ↔
    ∃ e ∈ st.footnotes.pending, e.2 = f ∧ e.1 ∉ st.footnotes.emitted ∧
      dueBefore b e.2.referenceLine = true := by
  rw [footnotesOut, (outputOrder_isOutputOrder _ _).perm.mem_iff]
  simp only [dueFootnotes, List.mem_map, List.mem_filter]
  constructor
  · rintro ⟨e, ⟨⟨h1, h2⟩, h3⟩, rfl⟩
    exact ⟨e, h1, rfl, by simpa using h2, h3⟩
  · rintro ⟨e, h1, rfl, h2, h3⟩
    exact ⟨e, ⟨⟨h1, by simpa using h2⟩, h3⟩, rfl⟩

theorem keptFootnotes_mem {b : Option Nat} {e : List Char × Footnote} : e ∈ keptFootnotes b st ↔
    e ∈ st.footnotes.pending ∧ e.1 ∉ st.footnotes.emitted ∧ dueBefore b e.2.referenceLine = false := by
  simp only [keptFootnotes, List.mem_filter]
  simp [and_assoc]

theorem RefInv.flushFootnotes (h : RefInv cx A F st) (b : Option Nat) :
    RefInv cx A F (flushFootnotesBefore cx b st) := by
  rw [flushFootnotes_eq]
  have hsub : ∀ p : (List Char × Footnote) → Bool,
      ((st.footnotes.pending.filter fun e => !st.footnotes.emitted.contains e.1).filter p).Sublist
        st.footnotes.pending := fun p =>
    (List.filter_sublist).trans List.filter_sublist
  refine { h with fN := ?_, fL := ?_, feN := ?_, emT := ?_, feT := ?_, covF := ?_ }
  · exact List.Sublist.nodup ((hsub _).map _) h.fN
  · intro e he
    exact h.fL e (keptFootnotes_mem.mp he).1
  · rw [List.nodup_append]
    refine ⟨h.feN, ?_, ?_⟩
    · have hp : ((footnotesOut b st).map (·.name)).Perm ((dueFootnotes b st).map (·.name)) :=
        (outputOrder_isOutputOrder _ _).perm.map _
      rw [hp.nodup_iff]
      have e : (dueFootnotes b st).map (·.name) =
          ((st.footnotes.pending.filter fun e => !st.footnotes.emitted.contains e.1).filter
            fun e => dueBefore b e.2.referenceLine).map (·.1) := by
        rw [dueFootnotes, List.map_map]
        apply List.map_congr_left
        intro e he
        exact (h.fL e ((hsub _).subset he)).1.symm
      rw [e]
      exact List.Sublist.nodup ((hsub _).map _) h.fN
    · intro a ha c hc hac
      subst hac
      obtain ⟨r, hr, rfl⟩ := List.mem_map.mp hc
      obtain ⟨e, he, rfl, h1, _⟩ := dueFootnotes_mem.mp hr
      rw [← (h.fL e he).1] at ha
      exact h1 ha
  · intro l hl
    obtain ⟨r, h1, h2, h3⟩ := h.emT l hl
    exact ⟨r, h1, h2, infix_append_left h3 _⟩
  · intro l hl
    rcases List.mem_append.mp hl with hl | hl
    · obtain ⟨r, h1, h2, h3⟩ := h.feT l hl
      exact ⟨r, h1, h2, infix_append_left h3 _⟩
    · obtain ⟨r, hr, rfl⟩ := List.mem_map.mp hl
      obtain ⟨e, he, rfl, _⟩ := dueFootnotes_mem.mp hr
      exact ⟨e.2, (h.fL e he).2, rfl, infix_group _ hr _⟩
  · intro f hf
    rcases h.covF f hf with h' | h'
    · exact .inl (by simp [h'])
    · by_cases hm : f.name ∈ st.footnotes.emitted
      · exact .inl (by simp [hm])
      · obtain ⟨e, he, h2⟩ := List.mem_map.mp h'
        have hl := (h.fL e he).1
        by_cases hd : dueBefore b e.2.referenceLine = true
        · left
          rw [List.mem_append]
          right
          rw [List.mem_map]
          exact ⟨e.2, dueFootnotes_mem.mpr ⟨e, he, rfl, by rw [h2]; exact hm, hd⟩, by rw [← hl, h2]⟩
        · right
          rw [List.mem_map]
          exact ⟨e, keptFootnotes_mem.mpr ⟨he, by rw [h2]; exact hm, by simpa using hd⟩, h2⟩

theorem RefInv.flushAll (h : RefInv cx A F st) (b : Option Nat) :
    RefInv cx A F (flushAll cx b st) :=
  ((h.flushFootnotes b).flushReferences).flushFootnoteRefs b

end

theorem flushAll_none_pending (cx : Cx) (st : St) :
    (flushAll cx none st).pendingReferences = [] ∧
    (flushAll cx none st).footnotes.pendingReferences = [] ∧
    (flushAll cx none st).footnotes.pending = [] := by
  rw [flushAll, flushFootnoteRefs_eq, flushReferences_eq, flushFootnotes_eq]
  simp [keptFnRefs, keptFootnotes, dueBefore]

end Hongdown
