import Verif.Lemmas.NestedDoc
import Verif.Lemmas.NestedEq
import Verif.Lemmas.RefRun

/-!
# Links of documents with nested lists are kept
-/

namespace Hongdown.Model
open Spec

/-! ### Links and their references -/

theorem resolve_fold (defs : List (List Char × (List Char × List Char))) {s t : List Char} (h : foldLabel s = foldLabel t) :
    resolve defs s = resolve defs t := by
  unfold resolve; rw [h]

theorem resolve_mem {defs : List (List Char × (List Char × List Char))} {t : List Char} {target : List Char × List Char}
    (h : resolve defs t = some target) : ∃ label, (label, target) ∈ defs := by
  unfold resolve at h
  obtain ⟨⟨l, x⟩, he, rfl⟩ := map_some h
  exact ⟨l, List.mem_of_find?_eq_some he⟩

/-- Definitions that agree with where links lead, and one of which is for a link. -/
theorem resolve_agrees {defs : List (List Char × (List Char × List Char))} {links : LinkMap} {t : List Char}
    (hd : ∀ e ∈ defs, links e.1 = some e.2) (hf : ∀ s t, foldLabel s = foldLabel t → links s = links t)
    (ht : ∃ e ∈ defs, e.1 = t) : resolve defs t = links t := by
  unfold resolve
  cases h : defs.find? fun e => foldLabel e.1 = foldLabel t with
  | none =>
    obtain ⟨e, he, rfl⟩ := ht
    have := List.find?_eq_none.1 h e he
    simp at this
  | some e =>
    have h1 := hd e (List.mem_of_find?_eq_some h)
    have h2 : foldLabel e.1 = foldLabel t := by simpa using List.find?_some h
    rw [Option.map_some, ← h1, hf _ _ h2]

theorem runRefs_mem {links : LinkMap} {r : Ref} : ∀ {a : List Run}, r ∈ runRefs links a ↔ .link r.label ∈ a ∧ links r.label = some (r.url, r.title)
  | [] => by simp [runRefs]
  | .span s :: a => by
    have ih := runRefs_mem (links := links) (r := r) (a := a)
    rw [runRefs]
    · simpa using ih
    · exact nofun
  | .emph d st i :: a => by
    have ih := runRefs_mem (links := links) (r := r) (a := a)
    rw [runRefs]
    · simpa using ih
    · exact nofun
  | .direct _ _ _ :: a => by
    have ih := runRefs_mem (links := links) (r := r) (a := a)
    rw [runRefs]
    · simpa using ih
    · exact nofun
  | .link t :: a => by
    have ih := runRefs_mem (links := links) (r := r) (a := a)
    rw [runRefs, List.mem_append, ih]
    cases h : links t with
    | none =>
      simp only [List.not_mem_nil, false_or, List.mem_cons, Run.link.injEq]
      constructor
      · exact fun h => ⟨.inr h.1, h.2⟩
      · rintro ⟨h1 | h1, h2⟩
        · rw [h1, h] at h2; cases h2
        · exact ⟨h1, h2⟩
    | some x =>
      obtain ⟨url, title⟩ := x
      simp only [List.mem_cons, List.not_mem_nil, or_false, Run.link.injEq]
      constructor
      · rintro (rfl | h1)
        · exact ⟨.inl rfl, h⟩
        · exact ⟨.inr h1.1, h1.2⟩
      · rintro ⟨h1 | h1, h2⟩
        · left
          rw [h1, h, Option.some.injEq, Prod.mk.injEq] at h2
          obtain ⟨l, u, ti⟩ := r
          simp only at h1 h2
          rw [h1, h2.1, h2.2]
        · exact .inr ⟨h1, h2⟩

theorem leafRefs_mem {links : LinkMap} {r : Ref} {b : CoreBlock} : r ∈ leafRefs links b ↔ HasLink r.label b ∧ links r.label = some (r.url, r.title) := by
  cases b with
  | heading level ls =>
    by_cases h : ∃ a, ContentReads ls a
    · obtain ⟨a, ha⟩ := h
      rw [leafRefs_heading ha, runRefs_mem]
      constructor
      · exact fun h => ⟨⟨a, ha, h.1⟩, h.2⟩
      · rintro ⟨⟨c, hc, h⟩, h2⟩
        rw [content_unique ha hc]; exact ⟨h, h2⟩
    · rw [leafRefs, dif_neg h]
      constructor
      · exact fun h => absurd h (by simp)
      · rintro ⟨⟨c, hc, _⟩, _⟩; exact absurd ⟨c, hc⟩ h
  | paragraph ls =>
    by_cases h : ∃ a, ContentReads ls a
    · obtain ⟨a, ha⟩ := h
      rw [leafRefs_paragraph ha, runRefs_mem]
      constructor
      · exact fun h => ⟨⟨a, ha, h.1⟩, h.2⟩
      · rintro ⟨⟨c, hc, h⟩, h2⟩
        rw [content_unique ha hc]; exact ⟨h, h2⟩
    · rw [leafRefs, dif_neg h]
      constructor
      · exact fun h => absurd h (by simp)
      · rintro ⟨⟨c, hc, _⟩, _⟩; exact absurd ⟨c, hc⟩ h
  | code _ _ => simp [leafRefs, HasLink]
  | rule => simp [leafRefs, HasLink]
  | definition _ _ => simp [leafRefs, HasLink]

theorem runsOk_link : ∀ {a : List Run} {p : Option Char} {t : List Char}, RunsOk p a → .link t ∈ a → LinkOk t
  | [], _, _, _, h => absurd h (by simp)
  | .span s :: a, _, t, hr, h => by
    rw [RunsOk] at hr
    exact runsOk_link hr.2.2 (by simpa using h)
  | .emph d st i :: a, _, t, hr, h => by
    rw [RunsOk] at hr
    exact runsOk_link hr.2.2.2.2 (by simpa using h)
  | .direct _ _ _ :: a, _, t, hr, h => by
    rw [RunsOk] at hr
    exact runsOk_link hr.2.2.2 (by simpa using h)
  | .link u :: a, _, t, hr, h => by
    rw [RunsOk] at hr
    rcases List.mem_cons.1 h with h | h
    · cases h; exact hr.1
    · exact runsOk_link hr.2.2.2 h

theorem hasLink_ok {t : List Char} {b : CoreBlock} (h : HasLink t b) : LinkOk t := by
  cases b with
  | heading _ ls => obtain ⟨a, ha, hm⟩ := h; exact runsOk_link ha.2 hm
  | paragraph ls => obtain ⟨a, ha, hm⟩ := h; exact runsOk_link ha.2 hm
  | code _ _ => exact absurd h id
  | rule => exact absurd h id
  | definition _ _ => exact absurd h id

theorem hasContent_link {links : LinkMap} {t : List Char} {b : CoreBlock} (hc : HasContent links b) (h : HasLink t b) : (links t).isSome = true := by
  cases b with
  | heading _ ls =>
    obtain ⟨a, ha, hm⟩ := h
    obtain ⟨c, hc, hl⟩ := hc
    rw [content_unique ha hc] at hm
    exact hl t hm
  | paragraph ls =>
    obtain ⟨a, ha, hm⟩ := h
    obtain ⟨c, hc, hl⟩ := hc
    rw [content_unique ha hc] at hm
    exact hl t hm
  | code _ _ => exact absurd h id
  | rule => exact absurd h id
  | definition _ _ => exact absurd h id

/-- Content with other definitions. -/
theorem hasContent_links {links links' : LinkMap} {b : CoreBlock} (hc : HasContent links b) (h : ∀ t, HasLink t b → links' t = links t) :
    HasContent links' b := by
  cases b with
  | heading _ ls =>
    obtain ⟨c, hc, hl⟩ := hc
    exact ⟨c, hc, fun t ht => by rw [h t ⟨c, hc, ht⟩]; exact hl t ht⟩
  | paragraph ls =>
    obtain ⟨c, hc, hl⟩ := hc
    exact ⟨c, hc, fun t ht => by rw [h t ⟨c, hc, ht⟩]; exact hl t ht⟩
  | code _ _ => trivial
  | rule => trivial
  | definition _ _ => trivial

theorem runRefs_same {links links' : LinkMap} : ∀ {a b : List Run}, a.map flatRun = b.map flatRun → (∀ t, .link t ∈ a → links' t = links t) →
    runRefs links' b = runRefs links a
  | [], [], _, _ => rfl
  | [], _ :: _, h, _ => by simp at h
  | _ :: _, [], h, _ => by simp at h
  | x :: a, y :: b, h, hl => by
    simp only [List.map_cons, List.cons.injEq] at h
    have ih := runRefs_same h.2 (fun t ht => hl t (by simp [ht]))
    cases x with
    | span s =>
      cases y with
      | span s' => rw [runRefs, runRefs, ih] <;> exact nofun
      | emph _ _ _ => cases h.1
      | link _ => cases h.1
      | direct _ _ _ => cases h.1
    | emph d st i =>
      cases y with
      | span s' => cases h.1
      | emph _ _ _ => rw [runRefs, runRefs, ih] <;> exact nofun
      | link _ => cases h.1
      | direct _ _ _ => cases h.1
    | link t =>
      cases y with
      | span s' => cases h.1
      | emph _ _ _ => cases h.1
      | direct _ _ _ => cases h.1
      | link t' =>
        have e : t = t' := by simpa [flatRun] using h.1
        subst e
        rw [runRefs, runRefs, ih, hl t (by simp)]
    | direct im u v =>
      cases y with
      | span s' => cases h.1
      | emph _ _ _ => cases h.1
      | link _ => cases h.1
      | direct _ _ _ => rw [runRefs, runRefs, ih] <;> exact nofun

theorem leafRefs_same {links links' : LinkMap} {dflt : List Char} {b b' : CoreBlock} (h : SameBlock dflt b b')
    (hl : ∀ t, HasLink t b → links' t = links t) : leafRefs links' b' = leafRefs links b := by
  cases b with
  | heading _ ls =>
    cases b' with
    | heading _ ls' =>
      obtain ⟨a, c, ha, hc, e⟩ := h.2.2
      rw [leafRefs_heading ha, leafRefs_heading hc]
      exact runRefs_same e fun t ht => hl t ⟨a, ha, ht⟩
    | _ => exact absurd h id
  | paragraph ls =>
    cases b' with
    | paragraph ls' =>
      obtain ⟨a, c, ha, hc, e⟩ := h.2
      rw [leafRefs_paragraph ha, leafRefs_paragraph hc]
      exact runRefs_same e fun t ht => hl t ⟨a, ha, ht⟩
    | _ => exact absurd h id
  | code _ _ =>
    cases b' with
    | code _ _ => rfl
    | _ => exact absurd h id
  | rule =>
    cases b' with
    | rule => rfl
    | _ => exact absurd h id
  | definition _ _ =>
    cases b' with
    | definition _ _ => rfl
    | _ => exact absurd h id

/-! ### The leaves of the same blocks -/

theorem sameDoc_append {dflt : List Char} : ∀ {a a' b b' : List CoreBlock}, SameDoc dflt a a' → SameDoc dflt b b' → SameDoc dflt (a ++ b) (a' ++ b')
  | [], [], _, _, _, h => h
  | [], _ :: _, _, _, h, _ => absurd h id
  | _ :: _, [], _, _, h, _ => absurd h id
  | _ :: _, _ :: _, _, _, h, h' => ⟨h.1, sameDoc_append h.2 h'⟩

mutual

theorem sameTree_leaves {dflt : List Char} : ∀ b c : TreeBlock, SameTree dflt b c → SameDoc dflt (leaves b) (leaves c)
  | .leaf _ b, .leaf _ c, h => by
    rw [SameTree] at h
    rw [leaves, leaves]; exact ⟨h, trivial⟩
  | .quote _ _ bs, .quote _ _ cs, h => by
    rw [SameTree] at h
    rw [leaves, leaves]; exact h.2
  | .list _ _ _ items, .list _ _ _ items', h => by
    rw [SameTree] at h
    rw [leaves, leaves]; exact sameItems_leaves items items' h.2.2
  | .table _ _ rows, .table _ _ rows', h => by
    rw [SameTree] at h
    rw [leaves, leaves]; exact h.2.2
  | .table _ _ _, .leaf _ _, h => by simp [SameTree] at h
  | .table _ _ _, .quote _ _ _, h => by simp [SameTree] at h
  | .table _ _ _, .list _ _ _ _, h => by simp [SameTree] at h
  | .leaf _ _, .table _ _ _, h => by simp [SameTree] at h
  | .quote _ _ _, .table _ _ _, h => by simp [SameTree] at h
  | .list _ _ _ _, .table _ _ _, h => by simp [SameTree] at h
  | .leaf _ _, .list _ _ _ _, h => by simp [SameTree] at h
  | .leaf _ _, .quote _ _ _, h => by simp [SameTree] at h
  | .quote _ _ _, .leaf _ _, h => by simp [SameTree] at h
  | .quote _ _ _, .list _ _ _ _, h => by simp [SameTree] at h
  | .list _ _ _ _, .quote _ _ _, h => by simp [SameTree] at h
  | .list _ _ _ _, .leaf _ _, h => by simp [SameTree] at h

theorem sameItems_leaves {dflt : List Char} : ∀ as bs : List (List TreeBlock), SameItems dflt as bs → SameDoc dflt (itemsLeaves as) (itemsLeaves bs)
  | [], [], _ => by rw [itemsLeaves]; trivial
  | a :: as, b :: bs, h => by
    rw [SameItems] at h
    rw [itemsLeaves, itemsLeaves]
    exact sameDoc_append (sameBlocks_leaves a b h.1) (sameItems_leaves as bs h.2)
  | [], _ :: _, h => by simp [SameItems] at h
  | _ :: _, [], h => by simp [SameItems] at h

theorem sameBlocks_leaves {dflt : List Char} : ∀ as bs : List TreeBlock, SameBlocks dflt as bs → SameDoc dflt (blocksLeaves as) (blocksLeaves bs)
  | [], [], _ => by rw [blocksLeaves]; trivial
  | a :: as, b :: bs, h => by
    rw [SameBlocks] at h
    rw [blocksLeaves, blocksLeaves]
    exact sameDoc_append (sameTree_leaves a b h.1) (sameBlocks_leaves as bs h.2)
  | [], _ :: _, h => by simp [SameBlocks] at h
  | _ :: _, [], h => by simp [SameBlocks] at h

end

theorem sameDoc_refs {links links' : LinkMap} {dflt : List Char} : ∀ {a b : List CoreBlock}, SameDoc dflt a b →
    (∀ l ∈ a, ∀ t, HasLink t l → links' t = links t) → b.flatMap (leafRefs links') = a.flatMap (leafRefs links)
  | [], [], _, _ => rfl
  | [], _ :: _, h, _ => absurd h id
  | _ :: _, [], h, _ => absurd h id
  | x :: a, y :: b, h, hl => by
    rw [List.flatMap_cons, List.flatMap_cons, leafRefs_same h.1 (hl x (by simp)), sameDoc_refs h.2 (fun l hm => hl l (by simp [hm]))]

theorem sameDoc_definitions {dflt : List Char} : ∀ {a b : List CoreBlock}, SameDoc dflt a b → definitions b = definitions a
  | [], [], _ => rfl
  | [], _ :: _, h => absurd h id
  | _ :: _, [], h => absurd h id
  | x :: a, y :: b, h => by
    have ih := sameDoc_definitions h.2
    have h1 := h.1
    cases x <;> cases y <;> first | exact absurd h1 id | skip
    all_goals first
      | (rw [definitions, definitions, ih, h1.1, h1.2])
      | (rw [definitions, definitions, ih] <;> exact nofun)

theorem definitions_mem {e : List Char × (List Char × List Char)} : ∀ {bs : List CoreBlock}, e ∈ definitions bs ↔ .definition e.1 e.2 ∈ bs
  | [] => by simp [definitions]
  | b :: bs => by
    have ih := definitions_mem (e := e) (bs := bs)
    cases b with
    | definition l t =>
      rw [definitions, List.mem_cons, ih, List.mem_cons]
      constructor
      · rintro (rfl | h)
        · exact .inl rfl
        · exact .inr h
      · rintro (h | h)
        · simp only [CoreBlock.definition.injEq] at h
          exact .inl (by rw [← h.1, ← h.2])
        · exact .inr h
    | _ =>
      rw [definitions, ih, List.mem_cons]
      · simp
      · exact nofun

/-! ### Where definitions are placed -/

/-- What is known of the pending references. -/
def PendingOk (links : LinkMap) (m : List (List Char × Ref)) : Prop :=
  ∀ e ∈ m, e.1 = e.2.label ∧ links e.2.label = some (e.2.url, e.2.title) ∧ LinkOk e.2.label

theorem pendingOk_add {links : LinkMap} : ∀ {refs : List Ref} {m : List (List Char × Ref)}, PendingOk links m →
    (∀ r ∈ refs, links r.label = some (r.url, r.title) ∧ LinkOk r.label) → PendingOk links (addRefs m refs)
  | [], _, h, _ => h
  | r :: refs, m, h, hr => by
    refine pendingOk_add (refs := refs) (m := mapInsert r.label r m) ?_ (fun x hx => hr x (by simp [hx]))
    intro e he
    rcases mapInsert_mem he with rfl | he
    · exact ⟨rfl, hr r (by simp)⟩
    · exact h e he

theorem addRefs_keys : ∀ {refs : List Ref} {m : List (List Char × Ref)} {t : List Char},
    (t ∈ m.map (·.1) ∨ ∃ r ∈ refs, r.label = t) → t ∈ (addRefs m refs).map (·.1)
  | [], _, _, h => by simpa [addRefs] using h
  | r :: refs, m, t, h => by
    refine addRefs_keys (refs := refs) (m := mapInsert r.label r m) ?_
    rw [mapInsert_key_mem]
    rcases h with h | ⟨x, hx, e⟩
    · exact .inl (.inr h)
    · rcases List.mem_cons.1 hx with rfl | hx
      · exact .inl (.inl e.symm)
      · exact .inr ⟨x, hx, e⟩

theorem duePending_mem {rs : List (List Char × Ref) × List (List Char)} {r : Ref} : r ∈ duePending rs ↔ (∃ e ∈ rs.1, e.2 = r) ∧ r.label ∉ rs.2 := by
  rw [duePending, (outputOrder_isOutputOrder _ _).perm.mem_iff]
  simp

theorem leaves_refs_ok {links : LinkMap} {b : TreeBlock} : ∀ r ∈ (leaves b).flatMap (leafRefs links), links r.label = some (r.url, r.title) ∧ LinkOk r.label := by
  intro r hr
  obtain ⟨l, _, hl⟩ := List.mem_flatMap.1 hr
  rw [leafRefs_mem] at hl
  exact ⟨hl.2, hasLink_ok hl.1⟩

theorem shownTrees_append (a b : List TreeBlock) : shownTrees (a ++ b) = shownTrees a ++ shownTrees b := by simp [shownTrees]

theorem shownTrees_defs (rs : List Ref) : shownTrees (rs.map defBlock) = [] := by
  rw [shownTrees, List.filter_eq_nil_iff]
  intro b hb
  obtain ⟨r, _, rfl⟩ := List.mem_map.1 hb
  simp [defBlock, TreeBlock.isDefinition, CoreBlock.isDefinition]

theorem shownTrees_place (links : LinkMap) : ∀ (bs : List TreeBlock) (start : Bool) (rs : List (List Char × Ref) × List (List Char)),
    bs.any TreeBlock.isDefinition = false → shownTrees (place links start rs bs) = bs
  | [], _, rs, _ => by rw [place, shownTrees_defs]
  | b :: bs, start, rs, h => by
    rw [List.any_cons, Bool.or_eq_false_iff] at h
    rw [place]
    split
    · rw [shownTrees_append, shownTrees_defs, shownTrees_cons, h.1, shownTrees_place links bs _ _ h.2]; rfl
    · rw [shownTrees_cons, h.1, shownTrees_place links bs _ _ h.2]; rfl

/-- What stands among the placed blocks. -/
theorem place_mem {links : LinkMap} : ∀ {bs : List TreeBlock} {start : Bool} {rs : List (List Char × Ref) × List (List Char)} {p : TreeBlock},
    PendingOk links rs.1 → p ∈ place links start rs bs → p ∈ bs ∨ ∃ r, p = defBlock r ∧ links r.label = some (r.url, r.title) ∧ LinkOk r.label
  | [], _, rs, p, hp, h => by
    rw [place] at h
    obtain ⟨r, hr, rfl⟩ := List.mem_map.1 h
    obtain ⟨⟨e, he, rfl⟩, _⟩ := duePending_mem.1 hr
    exact .inr ⟨_, rfl, (hp e he).2⟩
  | b :: bs, start, rs, p, hp, h => by
    rw [place] at h
    split at h
    · rcases List.mem_append.1 h with h | h
      · obtain ⟨r, hr, rfl⟩ := List.mem_map.1 h
        obtain ⟨⟨e, he, rfl⟩, _⟩ := duePending_mem.1 hr
        exact .inr ⟨_, rfl, (hp e he).2⟩
      · rcases List.mem_cons.1 h with rfl | h
        · exact .inl (by simp)
        · exact (place_mem (pendingOk_add (fun e he => absurd he (by simp [flushed])) leaves_refs_ok) h).imp_left (by simp +contextual)
    · rcases List.mem_cons.1 h with rfl | h
      · exact .inl (by simp)
      · exact (place_mem (pendingOk_add hp leaves_refs_ok) h).imp_left (by simp +contextual)

/-- Every pending reference, and every link, gets a definition. -/
theorem place_covers {links : LinkMap} : ∀ {bs : List TreeBlock} {start : Bool} {rs : List (List Char × Ref) × List (List Char)} {t : List Char},
    PendingOk links rs.1 → (t ∈ rs.1.map (·.1) ∨ ∃ b ∈ bs, ∃ r ∈ (leaves b).flatMap (leafRefs links), r.label = t) →
    t ∈ rs.2 ∨ ∃ r, defBlock r ∈ place links start rs bs ∧ r.label = t
  | [], _, rs, t, hp, h => by
    rcases h with h | ⟨b, hb, _⟩
    · by_cases hm : t ∈ rs.2
      · exact .inl hm
      · obtain ⟨e, he, rfl⟩ := List.mem_map.1 h
        have e1 := (hp e he).1
        refine .inr ⟨e.2, ?_, e1.symm⟩
        rw [place]
        exact List.mem_map_of_mem (duePending_mem.2 ⟨⟨e, he, rfl⟩, e1 ▸ hm⟩)
    · cases hb
  | b :: bs, start, rs, t, hp, h => by
    rw [place]
    split
    · have hdue : t ∈ rs.1.map (·.1) → t ∈ rs.2 ∨ ∃ r ∈ duePending rs, r.label = t := by
        intro h
        by_cases hm : t ∈ rs.2
        · exact .inl hm
        · obtain ⟨e, he, rfl⟩ := List.mem_map.1 h
          have e1 := (hp e he).1
          exact .inr ⟨e.2, duePending_mem.2 ⟨⟨e, he, rfl⟩, e1 ▸ hm⟩, e1.symm⟩
      have key : (∃ b' ∈ b :: bs, ∃ r ∈ (leaves b').flatMap (leafRefs links), r.label = t) →
          t ∈ rs.2 ∨ (∃ r ∈ duePending rs, r.label = t) ∨ ∃ r, defBlock r ∈
            place links false (addRefs (flushed rs).1 ((leaves b).flatMap (leafRefs links)), (flushed rs).2) bs ∧ r.label = t := by
        rintro ⟨b', hb, r, hr, e⟩
        have := place_covers (links := links) (bs := bs) (start := false) (t := t)
          (rs := (addRefs (flushed rs).1 ((leaves b).flatMap (leafRefs links)), (flushed rs).2))
          (pendingOk_add (fun e he => absurd he (by simp [flushed])) leaves_refs_ok) (by
            rcases List.mem_cons.1 hb with rfl | hb
            · exact .inl (addRefs_keys (.inr ⟨r, hr, e⟩))
            · exact .inr ⟨b', hb, r, hr, e⟩)
        rcases this with h | h
        · rcases List.mem_append.1 h with h | h
          · exact .inl h
          · obtain ⟨r, hr, e⟩ := List.mem_map.1 h
            exact .inr (.inl ⟨r, hr, e⟩)
        · exact .inr (.inr h)
      have all : t ∈ rs.2 ∨ (∃ r ∈ duePending rs, r.label = t) ∨ ∃ r, defBlock r ∈
            place links false (addRefs (flushed rs).1 ((leaves b).flatMap (leafRefs links)), (flushed rs).2) bs ∧ r.label = t := by
        rcases h with h | h
        · rcases hdue h with h | h
          · exact .inl h
          · exact .inr (.inl h)
        · exact key h
      rcases all with h | ⟨r, hr, e⟩ | ⟨r, hr, e⟩
      · exact .inl h
      · exact .inr ⟨r, List.mem_append_left _ (List.mem_map_of_mem hr), e⟩
      · exact .inr ⟨r, List.mem_append_right _ (List.mem_cons_of_mem _ hr), e⟩
    · have := place_covers (links := links) (bs := bs) (start := false) (t := t)
          (rs := (addRefs rs.1 ((leaves b).flatMap (leafRefs links)), rs.2)) (pendingOk_add hp leaves_refs_ok) (by
            rcases h with h | ⟨b', hb, r, hr, e⟩
            · exact .inl (addRefs_keys (.inl h))
            · rcases List.mem_cons.1 hb with rfl | hb
              · exact .inl (addRefs_keys (.inr ⟨r, hr, e⟩))
              · exact .inr ⟨b', hb, r, hr, e⟩)
      rcases this with h | ⟨r, hr, e⟩
      · exact .inl h
      · exact .inr ⟨r, List.mem_cons_of_mem _ hr, e⟩

/-- The same blocks with the same links get the same definitions. -/
theorem place_alike {cx : Cx} {links links' : LinkMap} {dflt : List Char} : ∀ {bs bs' : List TreeBlock} (start : Bool)
    (rs : List (List Char × Ref) × List (List Char)), AllAlike cx bs bs' → SameBlocks dflt bs bs' →
    (∀ l ∈ blocksLeaves bs, ∀ t, HasLink t l → links' t = links t) → AllAlike cx (place links start rs bs) (place links' start rs bs')
  | [], [], _, rs, _, _, _ => by
    rw [place, place]
    have := allAlike_append (cx := cx) ((duePending rs).map defBlock) (bs := []) (bs' := []) trivial
    simpa using this
  | [], _ :: _, _, _, h, _, _ => absurd h id
  | _ :: _, [], _, _, h, _, _ => absurd h id
  | b :: bs, b' :: bs', start, rs, h, hs, hl => by
    rw [SameBlocks] at hs
    rw [blocksLeaves] at hl
    have e1 : flushesBefore b' = flushesBefore b := by unfold flushesBefore; rw [h.1.level]
    have e2 := sameDoc_refs (links := links) (links' := links') (sameTree_leaves b b' hs.1) (fun l hm => hl l (by simp [hm]))
    rw [place, place, e1, e2]
    split
    · exact allAlike_append _ ⟨h.1, place_alike _ _ h.2 hs.2 (fun l hm => hl l (by simp [hm]))⟩
    · exact ⟨h.1, place_alike _ _ h.2 hs.2 (fun l hm => hl l (by simp [hm]))⟩

/-! ### Blocks without links -/

theorem place_nothing {links : LinkMap} : ∀ (bs : List TreeBlock) (start : Bool) (l : List (List Char)), (∀ b ∈ blocksLeaves bs, leafRefs links b = []) →
    place links start ([], l) bs = bs
  | [], _, l, _ => by rw [place, duePending_nil rfl]; rfl
  | b :: bs, start, l, h => by
    rw [blocksLeaves] at h
    have e : (leaves b).flatMap (leafRefs links) = [] := by
      rw [List.flatMap_eq_nil_iff]
      exact fun x hx => h x (by simp [hx])
    have hd : duePending (([], l) : List (List Char × Ref) × List (List Char)) = [] := duePending_nil rfl
    have ih : ∀ l, place links false ([], l) bs = bs := fun l => place_nothing bs false l fun x hx => h x (by simp [hx])
    rw [place, e, flushed, hd]
    simp only [addRefs, List.foldl_nil, List.map_nil, List.append_nil, List.nil_append, ih, ite_self]

theorem linksOf_none {d : List TreeBlock} (h : definitions (blocksLeaves d) = []) : linksOf d = noLinks := by
  funext t; rw [linksOf, h]; rfl

/-! ### Blocks one by one -/

theorem regularBlocks_iff : ∀ {bs : List TreeBlock}, regularBlocks bs = true ↔ ∀ b ∈ bs, regular b = true
  | [] => by simp [regularBlocks]
  | b :: bs => by rw [regularBlocks, Bool.and_eq_true, regularBlocks_iff (bs := bs)]; simp

theorem shapedBlocks_iff : ∀ {bs : List TreeBlock}, shapedBlocks bs = true ↔ ∀ b ∈ bs, shaped b = true
  | [] => by simp [shapedBlocks]
  | b :: bs => by rw [shapedBlocks, Bool.and_eq_true, shapedBlocks_iff (bs := bs)]; simp

theorem fitsBlocks_iff {ok : Nat → List Char → Prop} {k d : Nat} : ∀ {bs : List TreeBlock}, FitsBlocks ok k d bs ↔ ∀ b ∈ bs, FitsTree ok k d b
  | [] => by simp [FitsBlocks]
  | b :: bs => by rw [FitsBlocks, fitsBlocks_iff (bs := bs)]; simp

theorem mem_shownTrees {d : List TreeBlock} {b : TreeBlock} : b ∈ shownTrees d ↔ b ∈ d ∧ b.isDefinition = false := by simp [shownTrees]

theorem paragraphLines_shown : ∀ d : List TreeBlock, paragraphLines (blocksLeaves (shownTrees d)) = paragraphLines (blocksLeaves d)
  | [] => rfl
  | b :: bs => by
    rw [shownTrees_cons]
    cases h : b.isDefinition with
    | false => simp only [Bool.false_eq_true, if_false, blocksLeaves, paragraphLines_append, paragraphLines_shown bs]
    | true =>
      simp only [if_true, blocksLeaves, paragraphLines_append, paragraphLines_shown bs]
      cases b with
      | quote _ _ _ => cases h
      | table _ _ _ => cases h
      | list _ _ _ _ => cases h
      | leaf g b =>
        cases b with
        | definition _ _ => rfl
        | _ => cases h

theorem hasLink_shown {d : List TreeBlock} {l : CoreBlock} (h : l ∈ blocksLeaves d) {t : List Char} (ht : HasLink t l) : l ∈ blocksLeaves (shownTrees d) := by
  rw [blocksLeaves_mem] at h ⊢
  obtain ⟨b, hb, hl⟩ := h
  refine ⟨b, mem_shownTrees.2 ⟨hb, ?_⟩, hl⟩
  cases b with
  | quote _ _ => rfl
  | table _ _ _ => rfl
  | list _ _ _ _ => rfl
  | leaf g b =>
    rw [leaves, List.mem_singleton] at hl
    subst hl
    cases l with
    | definition _ _ => exact absurd ht id
    | _ => rfl

theorem sameBlocks_shown {dflt : List Char} : ∀ {bs bs' : List TreeBlock}, SameBlocks dflt bs bs' → SameBlocks dflt (shownTrees bs) (shownTrees bs')
  | [], [], h => h
  | [], _ :: _, h => by simp [SameBlocks] at h
  | _ :: _, [], h => by simp [SameBlocks] at h
  | b :: bs, b' :: bs', h => by
    rw [SameBlocks] at h
    have ih := sameBlocks_shown h.2
    rw [shownTrees_cons, shownTrees_cons, sameTree_isDefinition h.1]
    cases b.isDefinition with
    | true => simpa using ih
    | false => exact sameBlocks_cons h.1 ih

/-! ### The document that is read back -/

/-- What is known of a document that is formatted. -/
structure DocGood (cx : Cx) (d : List TreeBlock) : Prop where
  leaf : ∀ l ∈ blocksLeaves d, LeafGood cx l
  content : ∀ l ∈ blocksLeaves d, HasContent (linksOf d) l
  well : WellBlocks d
  regular : regularBlocks d = true
  follows : follows notBothLists (shownTrees d) = true

/-- The blocks that are written for a document. -/
noncomputable def placed (d : List TreeBlock) : List TreeBlock := place (linksOf d) true ([], []) (shownTrees d)

theorem shownTrees_noDefinition (d : List TreeBlock) : (shownTrees d).any TreeBlock.isDefinition = false := by
  rw [List.any_eq_false]
  intro b hb
  simpa using (mem_shownTrees.1 hb).2

theorem shownTrees_placed (d : List TreeBlock) : shownTrees (placed d) = shownTrees d :=
  shownTrees_place _ _ _ _ (shownTrees_noDefinition d)

theorem placed_mem {d : List TreeBlock} {p : TreeBlock} (h : p ∈ placed d) :
    p ∈ shownTrees d ∨ ∃ r, p = defBlock r ∧ linksOf d r.label = some (r.url, r.title) ∧ LinkOk r.label :=
  place_mem (fun e he => absurd he (by simp)) h

theorem placed_leaf {d : List TreeBlock} {l : CoreBlock} (h : l ∈ blocksLeaves (placed d)) :
    l ∈ blocksLeaves (shownTrees d) ∨ ∃ r : Ref, l = .definition r.label (r.url, r.title) ∧ linksOf d r.label = some (r.url, r.title) ∧ LinkOk r.label := by
  rw [blocksLeaves_mem] at h
  obtain ⟨p, hp, hl⟩ := h
  rcases placed_mem hp with hp | ⟨r, rfl, h⟩
  · exact .inl (blocksLeaves_mem.2 ⟨p, hp, hl⟩)
  · exact .inr ⟨r, by simpa [defBlock, leaves] using hl, h⟩

theorem shown_leaf {d : List TreeBlock} {l : CoreBlock} (h : l ∈ blocksLeaves (shownTrees d)) : l ∈ blocksLeaves d := by
  rw [blocksLeaves_mem] at h ⊢
  obtain ⟨b, hb, hl⟩ := h
  exact ⟨b, (mem_shownTrees.1 hb).1, hl⟩

theorem DocGood.target {cx : Cx} {d : List TreeBlock} (h : DocGood cx d) {t : List Char} {target : List Char × List Char}
    (ht : linksOf d t = some target) : TargetOk target := by
  obtain ⟨label, hm⟩ := resolve_mem ht
  exact (h.leaf _ (definitions_mem.1 hm)).valid.2

theorem DocGood.placed {cx : Cx} {d : List TreeBlock} (h : DocGood cx d) :
    (∀ l ∈ blocksLeaves (placed d), LeafGood cx l) ∧ regularBlocks (placed d) = true ∧ WellBlocks (placed d) := by
  refine ⟨fun l hl => ?_, ?_, ?_⟩
  · rcases placed_leaf hl with hl | ⟨r, rfl, h1, h2⟩
    · exact h.leaf l (shown_leaf hl)
    · exact ⟨⟨h2, h.target h1⟩, trivial, nofun⟩
  · rw [regularBlocks_iff]
    intro p hp
    rcases placed_mem hp with hp | ⟨r, rfl, _⟩
    · exact regularBlocks_iff.1 h.regular p (mem_shownTrees.1 hp).1
    · rw [defBlock, Spec.regular]
  · rw [wellBlocks_iff]
    intro p hp
    rcases placed_mem hp with hp | ⟨r, rfl, _⟩
    · exact wellBlocks_iff.1 h.well p (mem_shownTrees.1 hp).1
    · rw [defBlock, Well]; trivial

theorem placed_head (d : List TreeBlock) : ∀ b ∈ (placed d).head?, b.isDefinition = false := by
  intro b hb
  rw [Model.placed] at hb
  cases hs : shownTrees d with
  | nil =>
    rw [hs, place, duePending_nil rfl] at hb
    cases hb
  | cons x xs =>
    have hx : x.isDefinition = false := (mem_shownTrees.1 (show x ∈ shownTrees d by simp [hs])).2
    rw [hs, place, duePending_nil rfl] at hb
    split at hb
    · have : b = x := by simpa [eq_comm] using hb
      rw [this, hx]
    · have : b = x := by simpa [eq_comm] using hb
      rw [this, hx]

/-- The definitions that are written lead to the same places. -/
theorem DocGood.links {cx : Cx} {d : List TreeBlock} (h : DocGood cx d) : SameLinks (blocksLeaves d) (linksOf d) (linksOf (Model.placed d)) := by
  intro l hl t ht
  have hsome := hasContent_link (h.content l hl) ht
  obtain ⟨⟨url, title⟩, hx⟩ := Option.isSome_iff_exists.1 hsome
  refine resolve_agrees ?_ (fun s t e => resolve_fold _ e) ?_
  · intro e he
    rcases placed_leaf (definitions_mem.1 he) with hm | ⟨r, hr, h1, _⟩
    · obtain ⟨b, hb, hm⟩ := blocksLeaves_mem.1 hm
      have hb := mem_shownTrees.1 hb
      exact absurd (leaves_shown b (wellBlocks_iff.1 h.well b hb.1) hb.2 _ hm) (by simp [CoreBlock.isDefinition])
    · simp only [CoreBlock.definition.injEq] at hr
      rw [hr.1, hr.2, h1]
  · obtain ⟨b, hb, hm⟩ := blocksLeaves_mem.1 (hasLink_shown hl ht)
    have := place_covers (links := linksOf d) (bs := shownTrees d) (start := true) (rs := ([], [])) (t := t) (fun e he => absurd he (by simp))
      (.inr ⟨b, hb, ⟨t, url, title⟩, List.mem_flatMap.2 ⟨l, hm, leafRefs_mem.2 ⟨ht, hx⟩⟩, rfl⟩)
    rcases this with h | ⟨r, hr, e⟩
    · cases h
    · refine ⟨(r.label, (r.url, r.title)), definitions_mem.2 (blocksLeaves_mem.2 ⟨_, hr, ?_⟩), e⟩
      simp [defBlock, leaves]

theorem DocGood.ends {cx : Cx} (ho : NestedOptions cx.opts) {d : List TreeBlock} (h : DocGood cx d) : ∀ b ∈ shownTrees d, EndsOnce (treeText cx 0 b) := by
  intro b hb
  have hb := mem_shownTrees.1 hb
  obtain ⟨b', L, hw⟩ := written_top ho false (fun l hl => h.leaf l (blocksLeaves_mem.2 ⟨b, hb.1, hl⟩)) (regularBlocks_iff.1 h.regular b hb.1)
    (wellBlocks_iff.1 h.well b hb.1) hb.2
  exact hw.ends

theorem allAlike_ends {cx : Cx} : ∀ {bs bs' : List TreeBlock}, AllAlike cx bs bs' → (∀ b ∈ bs, EndsOnce (treeText cx 0 b)) →
    ∀ b ∈ bs', EndsOnce (treeText cx 0 b)
  | [], [], _, _ => by simp
  | [], _ :: _, h, _ => absurd h id
  | _ :: _, [], h, _ => absurd h id
  | b :: bs, b' :: bs', h, hb => by
    intro x hx
    rcases List.mem_cons.1 hx with rfl | hx
    · rw [h.1.text]; exact hb b (by simp)
    · exact allAlike_ends h.2 (fun b hm => hb b (by simp [hm])) x hx

/-- What is written for a document is read as the same document. -/
theorem treeDoc_reads {cx : Cx} (ho : NestedOptions cx.opts) {d : List TreeBlock} (hg : DocGood cx d) :
    ∃ d', ReadsAs (treeDoc cx none false (placed d)) d' ∧ SameDocument cx.opts.defaultLanguage d d' ∧
      treeDoc cx none false (placed d') = treeDoc cx none false (placed d) ∧ shapedBlocks (shownTrees d') = true ∧
      (∀ b ∈ shownTrees d', EndsOnce (treeText cx 0 b)) ∧
      (FitWidth cx.width → FitsBlocks (FitsOrWord cx.width cx.opts.lineWidth) 0 0 d') ∧
      (FitWidth cx.width → FitsBlocks (Fits cx.width cx.opts.lineWidth) 0 0 d → paragraphLines (blocksLeaves d') = paragraphLines (blocksLeaves d)) := by
  obtain ⟨h1, h2, h3⟩ := hg.placed
  have hsh := shownTrees_placed d
  obtain ⟨d', X, h⟩ := written_rest ho (placed d) none false (.inr (placed_head d)) h1 h2 h3 (by rw [hsh]; exact hg.follows)
  have hno : ∀ c, c = '\r' ∨ c = '\x00' → c ∉ treeDoc cx none false (placed d) := by
    intro c hc hm
    rw [h.text] at hm
    rcases mem_unlines hm with rfl | ⟨l, hl, hm⟩
    · rcases hc with hc | hc <;> exact absurd hc (by decide)
    · rcases hc with rfl | rfl
      · exact (h.chars l hl).2.1 hm
      · exact (h.chars l hl).2.2 hm
  have hs : splitOn '\n' (treeDoc cx none false (placed d)) = X ++ [[]] := by
    have := splitOn_unlines (fun l hl => (h.chars l hl).1) []
    rw [List.append_nil] at this
    rw [h.text, this]; rfl
  have hleaves := sameBlocks_leaves _ _ h.same
  have hlinks : linksOf d' = linksOf (placed d) := by unfold linksOf; rw [sameDoc_definitions hleaves]
  have hsame := sameBlocks_shown h.same
  rw [hsh] at hsame
  have hsl : SameLinks (blocksLeaves d) (linksOf d) (linksOf d') := by rw [hlinks]; exact hg.links
  have hcontent : ∀ l ∈ blocksLeaves d', HasContent (linksOf d') l := by
    refine sameDoc_content hleaves fun l hl => ?_
    rcases placed_leaf hl with hl | ⟨r, rfl, _⟩
    · exact hasContent_links (hg.content l (shown_leaf hl)) (hsl l (shown_leaf hl))
    · trivial
  have halike := allAlike_shown h.alike
  rw [hsh] at halike
  refine ⟨d', ⟨hno _ (.inl rfl), hno _ (.inr rfl), ?_, ?_, hcontent, ?_⟩, ⟨hsame, hsl⟩, ?_, ?_, allAlike_ends halike (hg.ends ho), h.fit, fun hw hf => ?_⟩
  · rw [hs]; exact h.first rfl
  · rw [hs]
    intro l hl hb
    rcases List.mem_append.1 hl with hl | hl
    · exact h.tabs l hl hb
    · have e : l = [] := by simpa using hl
      rw [e]; simp
  · obtain ⟨n, rest, he, _, hrs, _⟩ := h.reads
    rw [hs, he]
    exact reads_blanks n (by simpa using hrs)
  · exact treeDoc_alike none none false (place_alike true ([], []) halike hsame fun l hl => hsl l (shown_leaf hl)) rfl
  · rw [shapedBlocks_iff]
    exact fun b hb => shapedBlocks_iff.1 h.shaped b (mem_shownTrees.1 hb).1
  · rw [h.keep hw, ← paragraphLines_shown (placed d), hsh, paragraphLines_shown]
    rw [fitsBlocks_iff] at hf ⊢
    intro p hp
    rcases placed_mem hp with hp | ⟨r, rfl, _⟩
    · exact hf p (mem_shownTrees.1 hp).1
    · simp [defBlock, FitsTree]

theorem docGood_of {cx : Cx} {source : List Char} {d : List TreeBlock} (h : ReadsAs source d) (hf : ∀ b ∈ blocksLeaves d, BlockFits cx b)
    (hr : regularBlocks d = true) (hn : follows notBothLists (shownTrees d) = true) : DocGood cx d where
  leaf l hl := by
    have := (readsAs_ok h).1 l hl
    refine ⟨this.1, hf l hl, ?_⟩
    rintro info ls rfl
    exact this.2.2
  content := h.2.2.2.2.1
  well := (readsAs_ok h).2
  regular := hr
  follows := hn

theorem fits_kept {cx : Cx} {d : List TreeBlock} (hf : ∀ b ∈ blocksLeaves d, BlockFits cx b) :
    ∀ l ∈ blocksLeaves (shownTrees d), BlockKept cx l := fun l hl => blockKept_of (hf l (shown_leaf hl))

theorem sameDocument_kept {cx : Cx} {dflt : List Char} {d d' : List TreeBlock} (h : SameDocument dflt d d')
    (hk : ∀ l ∈ blocksLeaves (shownTrees d), BlockKept cx l) : ∀ l ∈ blocksLeaves (shownTrees d'), BlockKept cx l :=
  sameDoc_kept (sameBlocks_leaves _ _ h.1) hk

/-- What is written for a document. -/
theorem format_placed {cx : Cx} {source : List Char} {d : List TreeBlock} {root : Node} (ho : NestedOptions cx.opts) (hcb : cx.callback = none)
    (h : ReadsAs source d) (hq : ∀ l ∈ blocksLeaves (shownTrees d), BlockKept cx l) (hs : shapedBlocks (shownTrees d) = true) (hends : ∀ b ∈ shownTrees d, EndsOnce (treeText cx 0 b))
    (ht : IsDocument source d root) : (formatDoc (withSource cx source) root).output = treeDoc cx none false (placed d) :=
  format_tree_kept h.1 ho hcb (fun l hl => ⟨((readsAs_ok h).1 l (shown_leaf hl)).1, hq l hl⟩) hs hends ht

/-! ### Examples -/

/-- `placed`, with the references of the blocks given. -/
def placeBy (refs : TreeBlock → List Ref) : Bool → List (List Char × Ref) × List (List Char) → List TreeBlock → List TreeBlock
  | _, rs, [] => (duePending rs).map defBlock
  | start, rs, b :: bs =>
    if !start && flushesBefore b then
      (duePending rs).map defBlock ++ b :: placeBy refs false (addRefs (flushed rs).1 (refs b), (flushed rs).2) bs
    else b :: placeBy refs false (addRefs rs.1 (refs b), rs.2) bs

theorem place_eq {links : LinkMap} {refs : TreeBlock → List Ref} : ∀ (bs : List TreeBlock) (start : Bool) (rs : List (List Char × Ref) × List (List Char)),
    (∀ b ∈ bs, (leaves b).flatMap (leafRefs links) = refs b) → place links start rs bs = placeBy refs start rs bs
  | [], _, _, _ => by rw [place, placeBy]
  | b :: bs, start, rs, h => by
    have h1 := h b (by simp)
    have ih : ∀ rs, place links false rs bs = placeBy refs false rs bs := fun rs => place_eq bs false rs fun x hx => h x (by simp [hx])
    rw [place, placeBy, h1, ih, ih]

theorem leafRefs_plain {links : LinkMap} {b : CoreBlock} (h : textOnly b = true) : leafRefs links b = [] := by
  cases b with
  | heading _ ls => rw [leafRefs_heading (of_decide_eq_true h)]; rfl
  | paragraph ls => rw [leafRefs_paragraph (of_decide_eq_true h)]; rfl
  | code _ _ => rfl
  | rule => rfl
  | definition _ _ => rfl

theorem placed_plain {d : List TreeBlock} (h : (blocksLeaves (shownTrees d)).all textOnly = true) : placed d = shownTrees d :=
  place_nothing _ _ _ fun b hb => leafRefs_plain (List.all_eq_true.1 h b hb)

theorem placed_none {d : List TreeBlock} (h : definitions (blocksLeaves d) = []) : placed d = shownTrees d := by
  refine place_nothing _ _ _ fun b _ => ?_
  rw [linksOf_none h, List.eq_nil_iff_forall_not_mem]
  intro r hr
  exact absurd (leafRefs_mem.1 hr).2 (by simp [noLinks])

/-- Does the text have no quotation marks, no apostrophes and no links to other sites with their addresses? -/
def marklessText (t : List Char) : Bool := !t.contains '"' && !t.contains '\'' && decide (¬ [']', '(', 'h', 't', 't', 'p'] <:+: t)

/-- The same for a block. -/
def markless : CoreBlock → Bool
  | .heading _ ls => marklessText (joinWith ['\n'] ls)
  | .paragraph ls => marklessText (joinWith ['\n'] ls)
  | _ => true

theorem markless_lines {cx : Cx} {ls : List (List Char)}
    (h : marklessText (joinWith ['\n'] ls) = true) : LinesKept cx ls := by
  rw [marklessText, Bool.and_eq_true, Bool.and_eq_true] at h
  exact linesKept_without (by simpa using h.1.1) (by simpa using h.1.2) (of_decide_eq_true h.2)

theorem markless_kept {cx : Cx} {bs : List CoreBlock} (h : bs.all markless = true) : ∀ b ∈ bs, BlockKept cx b := by
  intro b hb
  have := List.all_eq_true.1 h b hb
  cases b with
  | heading _ ls => exact markless_lines this
  | paragraph ls => exact markless_lines this
  | _ => trivial

/-- Does the text end with one line break? -/
def endsOnce (t : List Char) : Bool :=
  match t.reverse with
  | '\n' :: c :: _ => c != '\n'
  | _ => false

theorem endsOnce_of {t : List Char} (h : endsOnce t = true) : EndsOnce t := by
  unfold endsOnce at h
  split at h
  · rename_i c x e
    refine ⟨x.reverse, c, ?_, by simpa using h⟩
    have := congrArg List.reverse e
    simpa using this
  · cases h

theorem endsOnce_all {cx : Cx} {bs : List TreeBlock} (h : bs.all (fun b => endsOnce (treeText cx 0 b)) = true) : ∀ b ∈ bs, EndsOnce (treeText cx 0 b) :=
  fun b hb => endsOnce_of (List.all_eq_true.1 h b hb)

end Hongdown.Model
