import Verif.Lemmas.Frame
import Verif.Spec.Lists

/-!
# Lemmas about lists
-/

namespace Hongdown
open Model Spec

theorem decimal_repr (n : Nat) : decimal (Nat.repr n).toList = some n := by
  rw [Nat.toList_repr, decimal, if_pos]
  · have := Nat.ofDigitChars_ten_toDigits (n := n)
    rw [Nat.ofDigitChars_eq_foldl] at this
    exact congrArg some this
  · refine ⟨Nat.toDigits_ne_nil, fun c hc => ?_⟩
    have := Nat.isDigit_of_mem_toDigits (by decide) (by decide) hc
    rw [Char.isDigit, Bool.and_eq_true, decide_eq_true_eq, decide_eq_true_eq] at this
    exact ⟨by simpa [UInt32.le_iff_toNat_le] using this.1,
      by simpa [UInt32.le_iff_toNat_le] using this.2⟩

theorem repr_head (n : Nat) (hn : n ≠ 0) : (Nat.repr n).toList.head? ≠ some '0' := by
  rw [Nat.toList_repr]
  induction n using Nat.strongRecOn with
  | ind n ih =>
    by_cases h : n < 10
    · rw [Nat.toDigits_of_lt_base h]
      have : ∀ m, m < 10 → m ≠ 0 → [m.digitChar].head? ≠ some '0' := by decide
      exact this n h hn
    · rw [Nat.toDigits_of_base_le (by decide) (by omega)]
      have hl := Nat.toDigits_ne_nil (n := n / 10) (b := 10)
      have := ih (n / 10) (by omega) (by omega)
      rw [List.head?_append]
      cases hh : (Nat.toDigits 10 (n / 10)).head? with
      | none => exact absurd (List.head?_eq_none_iff.mp hh) hl
      | some c => rw [hh] at this; exact this

theorem repr_length (n k : Nat) (hk : 0 < k) : (Nat.repr n).toList.length ≤ k ↔ n < 10 ^ k := by
  rw [Nat.toList_repr]
  exact Nat.length_toDigits_le_iff (by decide) hk

theorem itemMarker_ok (cx : Cx) (type : ListType) (st : St) (ht : st.listType = some type)
    (hd : st.inDescriptionDetails = false) :
    IsMarker cx.opts type st.listDepth st.listItemIndex (itemMarker cx st) := by
  cases type with
  | bullet => simp [IsMarker, IsBulletMarker, itemMarker, ht, hd, spaces]
  | ordered =>
    simp only [IsMarker, IsOrderedMarker, itemMarker, ht]
    refine ⟨_, _, by rw [List.append_assoc]; rfl, decimal_repr _, repr_head _, ?_, ?_⟩
    · intro h
      simp only [List.length_append, List.length_cons, List.length_nil, spaces,
        List.length_replicate]
      omega
    · intro h
      omega

/-- What stands before the content of item `k`. -/
def leadOf (cx : Cx) (type : ListType) (tight quote : Bool) (depth k : Nat) (m box : List Char) :
    List Char :=
  (if !tight && 1 < k then ['\n'] else []) ++ (if quote then ['>', ' '] else []) ++
    spaces ((if type = .ordered then cx.opts.orderedListIndentWidth else cx.opts.indentWidth) *
      (depth - 1)) ++ m ++ box

def taskOf (n : Node) : Option (Option Char) :=
  match n.value with
  | .taskItem s => some s
  | _ => none

theorem taskBox_ok (n : Node) :
    IsBox n (taskBox (taskOf n)) := by
  rw [IsBox, taskOf]
  cases n.value <;> try rfl
  rename_i s
  cases s <;> rfl

theorem itemLead_eq (cx : Cx) (type : ListType) (task : Option (Option Char)) (st : St)
    (ht : st.listType = some type) (hd : st.inDescriptionDetails = false) :
    itemLead cx task st = leadOf cx type st.listTight st.inBlockQuote st.listDepth st.listItemIndex
      (itemMarker cx st) (taskBox task) := by
  have e : (if 1 < st.listDepth then spaces (listIndentWidth cx st * (st.listDepth - 1)) else []) =
      spaces ((if type = .ordered then cx.opts.orderedListIndentWidth else cx.opts.indentWidth) *
        (st.listDepth - 1)) := by
    rw [listIndentWidth, ht]
    split
    · simp
    · rw [show st.listDepth - 1 = 0 by omega, Nat.mul_zero]
      rfl
  rw [itemLead, leadOf, hd, e]
  simp

theorem serItem_out (cx : Cx) (task : Option (Option Char)) {kids : List Kid}
    (h : ∀ k ∈ kids, KidOk cx k) (hb : Blocks kids) (st : St) :
    ∃ body, (serItem cx task kids st).output = st.output ++
      itemLead cx task { st with listItemIndex := st.listItemIndex + 1 } ++ body := by
  rw [serItem]
  generalize hs : ({ st with listItemIndex := st.listItemIndex + 1 } : St) = s1
  have ho : st.output = s1.output := by rw [← hs]
  have h1 := (serItemChildren_ok (itemIndent cx (s1.push (itemLead cx task s1))) h hb none
    { s1.push (itemLead cx task s1) with
      listItemIndent := itemIndent cx (s1.push (itemLead cx task s1)) }).out
  obtain ⟨body, hbody⟩ := h1
  simp only [St.push] at hbody
  rw [ho]
  split
  · exact ⟨body, hbody.symm⟩
  · refine ⟨body ++ ['\n'], ?_⟩
    simp only [St.push]
    rw [← List.append_assoc, hbody]

/-- An item in a list. -/
theorem ser_item_out (cx : Cx) (n : Node) (nb : Bool) (st : St) (hw : wellPlaced n = true)
    (hi : isItemLike n = true) :
    ∃ body, (ser cx n nb st).output = st.output ++
      itemLead cx (taskOf n)
        { st with listItemIndex := st.listItemIndex + 1 } ++ body := by
  obtain ⟨v, p, cs⟩ := n
  rw [wellPlaced, Bool.and_eq_true, Bool.and_eq_true, decide_eq_true_eq, Bool.or_eq_true] at hw
  obtain ⟨⟨hv, hc⟩, hk⟩ := hw
  have hk := serKids_ok cx cs hk
  have hb : isListValue v = false → Blocks (serKids cx cs) := fun hl k hkm => by
    rw [hl] at hc
    have hm : k.node ∈ (serKids cx cs).map (·.node) := List.mem_map.mpr ⟨k, hkm, rfl⟩
    rw [serKids_nodes] at hm
    simpa using List.all_eq_true.mp (hc.resolve_left (by simp)) _ hm
  simp only [ser]
  cases v <;> simp only [isItemLike, Node.value, reduceCtorEq, Bool.false_eq_true] at hi
  · exact serItem_out cx none hk (hb rfl) st
  · exact serItem_out cx _ hk (hb rfl) st

/-- The items of a list. -/
theorem items_out (cx : Cx) (type : ListType) (tight quote : Bool) (depth : Nat) :
    ∀ (cs : List Node) (st : St), wellPlacedList cs = true → cs.all isItemLike = true →
      st.listType = some type → st.listTight = tight → st.inBlockQuote = quote →
      st.listDepth = depth → st.inDescriptionDetails = false →
      ∃ parts : List (List Char), parts.length = cs.length ∧
        (runKids (serKids cx cs) st).output = st.output ++ parts.flatten ∧
        ∀ i n, cs[i]? = some n → ∃ m box body, parts[i]? =
            some (leadOf cx type tight quote depth (st.listItemIndex + i + 1) m box ++ body) ∧
          IsMarker cx.opts type depth (st.listItemIndex + i + 1) m ∧ IsBox n box
  | [], st, _, _, _, _, _, _, _ => ⟨[], rfl, by simp [serKids, runKids], by simp⟩
  | n :: ns, st, hw, hi, ht, hl, hq, hd, hdd => by
    rw [wellPlacedList, Bool.and_eq_true] at hw
    rw [List.all_cons, Bool.and_eq_true] at hi
    obtain ⟨body, hbody⟩ := ser_item_out cx n (nextIsBracket ns) st hw.1 hi.1
    have hok := ser_ok cx n (nextIsBracket ns) hw.1 st
    rw [kidStart, if_pos hi.1] at hok
    obtain ⟨h1, h2, h3, h4, h5, h6, h7, h8, h9, h10, h11⟩ := ctx_eq hok.ctx
    obtain ⟨parts, hp1, hp2, hp3⟩ := items_out cx type tight quote depth ns
      (ser cx n (nextIsBracket ns) st) hw.2 hi.2 (h2.trans ht) (h3.trans hl) (h4.trans hq)
      (h6.trans hd) (h7.trans hdd)
    have hrun : runKids (serKids cx (n :: ns)) st =
        runKids (serKids cx ns) (ser cx n (nextIsBracket ns) st) := by
      rw [serKids]; rfl
    rw [itemLead_eq cx type _ { st with listItemIndex := st.listItemIndex + 1 } ht hdd] at hbody
    refine ⟨(leadOf cx type tight quote depth (st.listItemIndex + 1)
        (itemMarker cx { st with listItemIndex := st.listItemIndex + 1 })
        (taskBox (taskOf n)) ++ body) :: parts,
      by rw [List.length_cons, List.length_cons, hp1], ?_, ?_⟩
    · rw [hrun, hp2, hbody, List.flatten_cons]
      simp only [hl, hq, hd, List.append_assoc]
    · intro i m hm
      cases i with
      | zero =>
        simp only [List.getElem?_cons_zero, Option.some.injEq] at hm
        subst hm
        refine ⟨_, _, _, rfl, ?_, taskBox_ok n⟩
        have := itemMarker_ok cx type { st with listItemIndex := st.listItemIndex + 1 } ht hdd
        simpa only [hd] using this
      | succ i =>
        rw [List.getElem?_cons_succ] at hm
        obtain ⟨mk, box, body', e, hm1, hm2⟩ := hp3 i m hm
        rw [h1] at e hm1
        refine ⟨mk, box, body', ?_, ?_, hm2⟩
        · rw [List.getElem?_cons_succ, e]
          simp only [Nat.add_assoc, Nat.add_comm 1]
        · simpa only [Nat.add_assoc, Nat.add_comm 1] using hm1

/-! ### Reading markers -/

theorem takeWhile_spaces (k : Nat) (s : List Char) (h : s.head? ≠ some ' ') :
    (List.replicate k ' ' ++ s).takeWhile (· = ' ') = List.replicate k ' ' := by
  rw [List.takeWhile_append_of_pos (by simp)]
  cases s with
  | nil => simp
  | cons c s =>
    have : c ≠ ' ' := fun hc => h (by rw [hc]; rfl)
    rw [List.takeWhile_cons_of_neg (by simpa using this), List.append_nil]

theorem drop_spaces (k : Nat) (s : List Char) : (List.replicate k ' ' ++ s).drop k = s :=
  List.drop_left' (List.length_replicate ..)

theorem contentColumn_ok (col gap : Nat) (text : List Char) (hg : 1 ≤ gap) (hg4 : gap ≤ 4)
    (ht : text ≠ []) (hs : text.head? ≠ some ' ') :
    contentColumn col (List.replicate gap ' ' ++ text) = some (col + gap) := by
  rw [contentColumn, takeWhile_spaces gap text hs]
  simp only [List.length_replicate]
  rw [drop_spaces, if_neg ht, if_neg (by omega), if_pos hg4]

theorem readItem_bullet (i l gap : Nat) (m : Char) (text : List Char)
    (hm : m = '-' ∨ m = '*' ∨ m = '+') (hg : 1 ≤ gap) (hg4 : gap ≤ 4) (ht : text ≠ [])
    (hs : text.head? ≠ some ' ') :
    readItem (List.replicate i ' ' ++ (List.replicate l ' ' ++ m :: List.replicate gap ' ') ++ text) =
      some ⟨i + l, none, m, i + l + 1 + gap⟩ := by
  have e : List.replicate i ' ' ++ (List.replicate l ' ' ++ m :: List.replicate gap ' ') ++ text =
      List.replicate (i + l) ' ' ++ m :: (List.replicate gap ' ' ++ text) := by
    rw [← List.replicate_append_replicate]
    simp only [List.append_assoc, List.cons_append]
  have hm0 : (m :: (List.replicate gap ' ' ++ text)).head? ≠ some ' ' := by
    rcases hm with rfl | rfl | rfl <;> simp
  rw [e, readItem]
  simp only [takeWhile_spaces _ _ hm0, List.length_replicate]
  simp only [drop_spaces]
  have hd : (m :: (List.replicate gap ' ' ++ text)).takeWhile
      (fun c => 48 ≤ c.toNat && c.toNat ≤ 57) = [] := by
    rcases hm with rfl | rfl | rfl <;> rfl
  rw [hd]
  simp only [List.length_nil, List.drop_zero, if_pos]
  rw [if_pos hm, contentColumn_ok _ gap text hg hg4 ht hs]
  rfl

theorem digits_of_decimal {s : List Char} {k : Nat} (h : decimal s = some k) :
    s ≠ [] ∧ ∀ c ∈ s, 48 ≤ c.toNat ∧ c.toNat ≤ 57 := by
  rw [decimal] at h
  split at h
  · assumption
  · exact absurd h (by simp)

theorem readItem_ordered (i gap k : Nat) (digits : List Char) (d : Char) (text : List Char)
    (hk : decimal digits = some k) (h9 : digits.length ≤ 9)
    (hm : d = '.' ∨ d = ')') (hg : 1 ≤ gap) (hg4 : gap ≤ 4) (ht : text ≠ [])
    (hs : text.head? ≠ some ' ') :
    readItem (List.replicate i ' ' ++ (digits ++ d :: List.replicate gap ' ') ++ text) =
      some ⟨i, some k, d, i + digits.length + 1 + gap⟩ := by
  obtain ⟨hne, hdig⟩ := digits_of_decimal hk
  have e : List.replicate i ' ' ++ (digits ++ d :: List.replicate gap ' ') ++ text =
      List.replicate i ' ' ++ (digits ++ d :: (List.replicate gap ' ' ++ text)) := by
    simp
  have hm0 : (digits ++ d :: (List.replicate gap ' ' ++ text)).head? ≠ some ' ' := by
    cases digits with
    | nil => exact absurd rfl hne
    | cons c cs =>
      intro hc
      simp only [List.cons_append, List.head?_cons, Option.some.injEq] at hc
      have := hdig c (by simp)
      rw [hc] at this
      exact absurd this.1 (by decide)
  rw [e, readItem]
  simp only [takeWhile_spaces _ _ hm0, List.length_replicate]
  simp only [drop_spaces]
  have hd : (digits ++ d :: (List.replicate gap ' ' ++ text)).takeWhile
      (fun c => 48 ≤ c.toNat && c.toNat ≤ 57) = digits := by
    rw [List.takeWhile_append_of_pos (by simpa using hdig), List.takeWhile_cons_of_neg,
      List.append_nil]
    rcases hm with rfl | rfl <;> decide
  rw [hd, List.drop_left]
  simp only
  rw [if_neg hne, if_pos ⟨h9, hm⟩, contentColumn_ok _ gap text hg hg4 ht hs, hk]
  rfl

/-! ### The children of an item -/

/-- The child before those after `A`. -/
def prevOf (prev : Option Node) (A : List Kid) : Option Node :=
  match A.getLast? with
  | none => prev
  | some k => some k.node

theorem itemChildren_split (cx : Cx) (indent : List Char) (k : Kid) (B : List Kid)
    (hB : ∀ k ∈ B, KidOk cx k) (hbB : Blocks B) :
    ∀ (A : List Kid) (prev : Option Node) (st : St), (∀ k ∈ A, KidOk cx k) → Blocks A →
      ∃ st', OkAt (kidUses cx A) st st' ∧
        (serItemChild cx indent (prevOf prev A) k st').output <+: (serItemChildren cx indent prev (A ++ k :: B) st).output
  | [], prev, st, _, _ => ⟨st, OkAt.refl st, (serItemChildren_ok indent hB hbB _ _).out⟩
  | a :: A, prev, st, hA, hbA => by
    have h1 := serItemChild_ok (hA a (by simp)) (hbA a (by simp)) indent prev st
    obtain ⟨st', h2, h3⟩ := itemChildren_split cx indent k B hB hbB A (some a.node)
      (serItemChild cx indent prev a st) (fun k hk => hA k (by simp [hk]))
      (fun k hk => hbA k (by simp [hk]))
    refine ⟨st', by rw [kidUses_cons]; exact h1.trans h2, ?_⟩
    have e : prevOf prev (a :: A) = prevOf (some a.node) A := by
      rw [prevOf, prevOf]
      cases A with
      | nil => rfl
      | cons b A => rw [List.getLast?_cons_cons]; simp [List.getLast?_cons]
    rw [e]
    exact h3

theorem serKids_split (cx : Cx) (c : Node) (B : List Node) : ∀ A : List Node,
    ∃ A', serKids cx (A ++ c :: B) = A' ++ ⟨c, ser cx c (nextIsBracket B)⟩ :: serKids cx B ∧
      A'.map (·.node) = A
  | [] => ⟨[], by rw [List.nil_append, serKids]; rfl, rfl⟩
  | a :: A => by
    obtain ⟨A', h1, h2⟩ := serKids_split cx c B A
    exact ⟨⟨a, ser cx a (nextIsBracket (A ++ c :: B))⟩ :: A',
      by rw [List.cons_append, serKids, h1]; rfl, by rw [List.map_cons, h2]⟩

theorem ser_item_eq (cx : Cx) (v : NodeValue) (p : Pos) (cs : List Node) (nb : Bool) (st : St)
    (hi : isItemLike (.mk v p cs) = true) :
    ser cx (.mk v p cs) nb st = serItem cx (taskOf (.mk v p cs)) (serKids cx cs) st := by
  simp only [ser]
  cases v <;> simp only [isItemLike, Node.value, reduceCtorEq, Bool.false_eq_true] at hi
  · rfl
  · rfl

/-- How far an item is when it comes to its child `c`. -/
theorem item_child (cx : Cx) (v : NodeValue) (p : Pos) (A : List Node) (c : Node) (B : List Node)
    (nb : Bool) (st : St) (hw : wellPlaced (.mk v p (A ++ c :: B)) = true)
    (hi : isItemLike (.mk v p (A ++ c :: B)) = true) :
    ∃ (prev : Option Node) (st' : St) (u : List Char),
      let s1 := { st with listItemIndex := st.listItemIndex + 1 }
      st'.output = st.output ++ itemLead cx (taskOf (.mk v p (A ++ c :: B))) s1 ++ u ∧
      st'.listDepth = st.listDepth ∧ st'.listType = st.listType ∧
      st'.inBlockQuote = st.inBlockQuote ∧ st'.inDescriptionDetails = st.inDescriptionDetails ∧
      st'.listItemIndent = itemIndent cx s1 ∧
      (serItemChild cx (itemIndent cx s1) prev ⟨c, ser cx c (nextIsBracket B)⟩ st').output <+:
        (ser cx (.mk v p (A ++ c :: B)) nb st).output ∧
      (A ≠ [] → ∃ n, prev = some n ∧ A.getLast? = some n) ∧
      (A = [] → prev = none) := by
  rw [ser_item_eq cx v p _ nb st hi]
  generalize taskOf (.mk v p (A ++ c :: B)) = task
  rw [wellPlaced, Bool.and_eq_true, Bool.and_eq_true, decide_eq_true_eq, Bool.or_eq_true] at hw
  obtain ⟨⟨hv, hc⟩, hk⟩ := hw
  have hl : isListValue v = false := by
    cases v <;> first | rfl | exact absurd hi (by simp [isItemLike, Node.value])
  have hk := serKids_ok cx _ hk
  have hb : Blocks (serKids cx (A ++ c :: B)) := fun k hkm => by
    rw [hl] at hc
    have hm : k.node ∈ (serKids cx (A ++ c :: B)).map (·.node) := List.mem_map.mpr ⟨k, hkm, rfl⟩
    rw [serKids_nodes] at hm
    simpa using List.all_eq_true.mp (hc.resolve_left (by simp)) _ hm
  obtain ⟨A', h1, h2⟩ := serKids_split cx c B A
  rw [h1] at hk hb
  rw [serItem, h1]
  generalize hs : ({ st with listItemIndex := st.listItemIndex + 1 } : St) = s1
  have hs1 : s1.output = st.output ∧ s1.listDepth = st.listDepth ∧ s1.listType = st.listType ∧
      s1.inBlockQuote = st.inBlockQuote ∧ s1.inDescriptionDetails = st.inDescriptionDetails := by
    rw [← hs]; exact ⟨rfl, rfl, rfl, rfl, rfl⟩
  have hind : itemIndent cx (s1.push (itemLead cx task s1)) = itemIndent cx s1 := rfl
  rw [hind]
  obtain ⟨st', h3, h4⟩ := itemChildren_split cx (itemIndent cx s1) ⟨c, ser cx c (nextIsBracket B)⟩
    (serKids cx B) (fun k hkm => hk k (by simp [hkm])) (fun k hkm => hb k (by simp [hkm])) A' none
    { s1.push (itemLead cx task s1) with listItemIndent := itemIndent cx s1 }
    (fun k hkm => hk k (by simp [hkm])) (fun k hkm => hb k (by simp [hkm]))
  obtain ⟨u, hu⟩ := h3.out
  obtain ⟨c1, c2, c3, c4, c5, c6, c7, c8, c9, c10, c11⟩ := ctx_eq h3.ctx
  refine ⟨prevOf none A', st', u, ?_, ?_, ?_, ?_, ?_, ?_, ?_, ?_, ?_⟩
  rotate_left
  · exact c6.trans hs1.2.1
  · exact c2.trans hs1.2.2.1
  · exact c4.trans hs1.2.2.2.1
  · exact c7.trans hs1.2.2.2.2
  · exact c9
  · refine h4.trans ?_
    split
    · exact List.prefix_rfl
    · exact List.prefix_append _ _
  · intro hA
    rw [prevOf]
    cases hg : A'.getLast? with
    | none =>
      rw [List.getLast?_eq_none_iff] at hg
      rw [hg] at h2
      exact absurd h2.symm hA
    | some k =>
      refine ⟨k.node, rfl, ?_⟩
      rw [← h2, List.getLast?_map, hg]
      rfl
  · intro hA
    rw [hA, List.map_eq_nil_iff] at h2
    rw [h2]
    rfl
  · rw [← hu, ← hs1.1]
    rfl

theorem wellPlacedList_mem {cs : List Node} (h : wellPlacedList cs = true) {c : Node} (hc : c ∈ cs) :
    wellPlaced c = true := by
  induction cs with
  | nil => exact absurd hc (by simp)
  | cons n ns ih =>
    rw [wellPlacedList, Bool.and_eq_true] at h
    rcases List.mem_cons.mp hc with rfl | hc
    · exact h.1
    · exact ih h.2 hc

theorem itemMarker_length (cx : Cx) (type : ListType) (st : St) (ht : st.listType = some type)
    (hd : st.inDescriptionDetails = false)
    (hfit : type = .ordered → (Nat.repr st.listItemIndex).length + 2 ≤ cx.opts.orderedListIndentWidth) :
    (itemMarker cx st).length = if type = .ordered then cx.opts.orderedListIndentWidth
      else cx.opts.leadingSpaces + 1 + cx.opts.trailingSpaces := by
  cases type with
  | bullet =>
    simp [itemMarker, ht, hd, spaces]
    omega
  | ordered =>
    have := hfit rfl
    rw [← String.length_toList] at this
    simp only [itemMarker, ht, spaces, List.length_append, List.length_cons,
      List.length_nil, List.length_replicate, if_true]
    omega

/-- The indentation of the content is the width of what stands before it. -/
theorem itemIndent_eq (cx : Cx) (type : ListType) (st : St) (ht : st.listType = some type)
    (hd : st.inDescriptionDetails = false)
    (hfit : type = .ordered → (Nat.repr st.listItemIndex).length + 2 ≤ cx.opts.orderedListIndentWidth) :
    itemIndent cx st = List.replicate ((if type = .ordered then cx.opts.orderedListIndentWidth
      else cx.opts.indentWidth) * (st.listDepth - 1) + (itemMarker cx st).length) ' ' := by
  have hm : (itemMarker cx st).length = markerWidth cx st.listType := by
    rw [itemMarker_length cx type st ht hd hfit, ht]
    cases type <;> rfl
  rw [itemIndent, hd, hm, ← List.replicate_append_replicate, listIndentWidth, ht]
  simp only [spaces, Option.some.injEq, Bool.false_eq_true, if_false]
  split
  · rfl
  · rw [show st.listDepth - 1 = 0 by omega, Nat.mul_zero]
    rfl

theorem foldl_digits (s : List Char) : ∀ a : Nat,
    a * 10 ^ s.length ≤ s.foldl (fun a c => 10 * a + (c.toNat - 48)) a := by
  induction s with
  | nil => intro a; simp
  | cons c s ih =>
    intro a
    rw [List.foldl_cons, List.length_cons, Nat.pow_succ]
    refine Nat.le_trans ?_ (ih _)
    have := Nat.mul_le_mul_right (10 ^ s.length) (show a * 10 ≤ 10 * a + (c.toNat - 48) by omega)
    calc a * (10 ^ s.length * 10) = a * 10 * 10 ^ s.length := by
          rw [Nat.mul_assoc, Nat.mul_comm (10 ^ s.length) 10]
      _ ≤ _ := this

theorem decimal_length {s : List Char} {k n : Nat} (h : decimal s = some k)
    (h0 : s.head? ≠ some '0') (hk : k < 10 ^ n) : s.length ≤ n := by
  obtain ⟨hne, hd⟩ := digits_of_decimal h
  rw [decimal, if_pos ⟨hne, hd⟩, Option.some.injEq] at h
  cases s with
  | nil => exact absurd rfl hne
  | cons c s =>
    have hc := hd c (by simp)
    have hc1 : 1 ≤ c.toNat - 48 := by
      have : c.toNat ≠ 48 := fun e => h0 (by
        rw [List.head?_cons, Option.some.injEq]
        exact Char.toNat_inj.mp e)
      omega
    rw [List.foldl_cons] at h
    have := foldl_digits s (10 * 0 + (c.toNat - 48))
    rw [h] at this
    have h2 : 10 ^ s.length ≤ k := by
      refine Nat.le_trans ?_ this
      simpa using Nat.mul_le_mul_right (10 ^ s.length) (show 1 ≤ 10 * 0 + (c.toNat - 48) by omega)
    have h3 : 10 ^ s.length < 10 ^ n := Nat.lt_of_le_of_lt h2 hk
    have := (Nat.pow_lt_pow_iff_right (by decide)).mp h3
    exact this

end Hongdown
