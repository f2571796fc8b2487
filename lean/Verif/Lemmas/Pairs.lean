import Verif.Lemmas.PunctPipeline

namespace Hongdown.Model

/-- Two lists, element by element. -/
def Pairs {α β : Type} (R : α → β → Prop) : List α → List β → Prop
  | [], [] => True
  | a :: s, b :: t => R a b ∧ Pairs R s t
  | _, _ => False

section
variable {α β : Type} {R : α → β → Prop}

theorem pairs_append : ∀ {s : List α} {t : List β} {s' : List α} {t' : List β}, Pairs R s t → Pairs R s' t' → Pairs R (s ++ s') (t ++ t')
  | [], [], _, _, _, h' => h'
  | _ :: _, _ :: _, _, _, h, h' => ⟨h.1, pairs_append h.2 h'⟩

theorem pairs_right : ∀ {s : List α} {t : List β}, Pairs R s t → ∀ b ∈ t, ∃ a ∈ s, R a b
  | [], [], _, b, hb => by cases hb
  | a :: s, c :: t, h, b, hb => by
    rcases List.mem_cons.1 hb with rfl | hb
    · exact ⟨a, by simp, h.1⟩
    · obtain ⟨x, hx, h'⟩ := pairs_right h.2 b hb
      exact ⟨x, by simp [hx], h'⟩

theorem pairs_left : ∀ {s : List α} {t : List β}, Pairs R s t → ∀ a ∈ s, ∃ b ∈ t, R a b
  | [], [], _, b, hb => by cases hb
  | a :: s, c :: t, h, b, hb => by
    rcases List.mem_cons.1 hb with rfl | hb
    · exact ⟨c, by simp, h.1⟩
    · obtain ⟨x, hx, h'⟩ := pairs_left h.2 b hb
      exact ⟨x, by simp [hx], h'⟩

theorem pairs_length : ∀ {s : List α} {t : List β}, Pairs R s t → s.length = t.length
  | [], [], _ => rfl
  | _ :: _, _ :: _, h => by simp [pairs_length h.2]

theorem pairs_map {γ : Type} {f : α → γ} {g : β → γ} (hf : ∀ a b, R a b → f a = g b) : ∀ {s : List α} {t : List β}, Pairs R s t → s.map f = t.map g
  | [], [], _ => rfl
  | _ :: _, _ :: _, h => by rw [List.map_cons, List.map_cons, hf _ _ h.1, pairs_map hf h.2]

theorem pairs_imp {S : α → β → Prop} (hi : ∀ a b, R a b → S a b) : ∀ {s : List α} {t : List β}, Pairs R s t → Pairs S s t
  | [], [], _ => trivial
  | _ :: _, _ :: _, h => ⟨hi _ _ h.1, pairs_imp hi h.2⟩

theorem pairs_refl {R : α → α → Prop} (hR : ∀ a, R a a) : ∀ s : List α, Pairs R s s
  | [] => trivial
  | a :: s => ⟨hR a, pairs_refl hR s⟩

theorem pairs_trans {R : α → α → Prop} (hR : ∀ a b c, R a b → R b c → R a c) : ∀ {s t u : List α}, Pairs R s t → Pairs R t u → Pairs R s u
  | [], [], [], _, _ => trivial
  | _ :: _, _ :: _, _ :: _, h, h' => ⟨hR _ _ _ h.1 h'.1, pairs_trans hR h.2 h'.2⟩

end

theorem dashGo_absent (pat : List Char) (rep : Char) : ∀ (s : List Char) (prev : Option Char), ¬ pat <:+: s →
    dashGo pat rep 0 prev s = s
  | [], _, _ => rfl
  | c :: s, prev, h => by
    have h1 : pat.isPrefixOf (c :: s) = false := by
      rw [Bool.eq_false_iff]
      intro e
      exact h (List.isPrefixOf_iff_prefix.1 e).isInfix
    rw [dashGo, if_neg (by rw [h1]; simp), dashGo_absent pat rep s _ (fun hi => h (hi.trans (List.suffix_cons c s).isInfix))]

theorem transformDashes_absent {pat : List Char} (rep : Char) {s : List Char} (h : ¬ pat <:+: s) :
    transformDashes pat rep s = s := by
  rw [transformDashes]
  split
  · rfl
  · exact dashGo_absent pat rep s none h

end Hongdown.Model
