import Verif.Spec.Each

/-!
# Lemmas about `Each`
-/

namespace Louis

theorem Each.append {α β : Type} {R : α → β → Prop} {as as' : List α} {bs bs' : List β} (h : Each R as bs) (h' : Each R as' bs') :
    Each R (as ++ as') (bs ++ bs') := by
  induction h with
  | nil => exact h'
  | cons h _ ih => exact .cons h ih

theorem Each.split {α β : Type} {R : α → β → Prop} : ∀ {as as' : List α} {bs : List β}, Each R (as ++ as') bs →
    ∃ cs cs', bs = cs ++ cs' ∧ Each R as cs ∧ Each R as' cs'
  | [], _, bs, h => ⟨[], bs, rfl, .nil, h⟩
  | a :: as, as', bs, h => by
    cases h with
    | cons h hs =>
      obtain ⟨cs, cs', rfl, h1, h2⟩ := Each.split hs
      exact ⟨_ :: cs, cs', rfl, .cons h h1, h2⟩

theorem Each.map_left {α β γ : Type} {R : α → β → Prop} (f : γ → α) {as : List γ} {bs : List β} :
    Each R (as.map f) bs ↔ Each (fun a b => R (f a) b) as bs := by
  constructor
  · induction as generalizing bs with
    | nil => intro h; cases h; exact .nil
    | cons a as ih => intro h; cases h with | cons h hs => exact .cons h (ih hs)
  · intro h
    induction h with
    | nil => exact .nil
    | cons h _ ih => exact .cons h ih

theorem Each.mono {α β : Type} {R S : α → β → Prop} {as : List α} {bs : List β} (h : Each R as bs)
    (hs : ∀ a b, a ∈ as → R a b → S a b) : Each S as bs := by
  induction h with
  | nil => exact .nil
  | cons h _ ih => exact .cons (hs _ _ (by simp) h) (ih fun a b m => hs a b (by simp [m]))

theorem Each.functional {α β : Type} {R : α → β → Prop} {as : List α} {bs cs : List β} (h : Each R as bs) (h' : Each R as cs)
    (hf : ∀ a ∈ as, ∀ b c, R a b → R a c → b = c) : bs = cs := by
  induction h generalizing cs with
  | nil => cases h'; rfl
  | cons h _ ih =>
    cases h' with
    | cons k ks => rw [hf _ (by simp) _ _ h k, ih ks fun a ha => hf a (by simp [ha])]

theorem Each.of_map {α β : Type} {R : α → β → Prop} (f : α → β) {as : List α} (h : ∀ a ∈ as, R a (f a)) : Each R as (as.map f) := by
  induction as with
  | nil => exact .nil
  | cons a as ih => exact .cons (h a (by simp)) (ih fun b hb => h b (by simp [hb]))

end Louis
