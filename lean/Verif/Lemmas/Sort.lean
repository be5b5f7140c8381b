import Verif.Model.Indicators

/-! # Sorting -/

namespace Louis

theorem insertBack_perm {α : Type} (less : α → α → Bool) (x : α) (l : List α) : (insertBack less x l).Perm (x :: l) := by
  induction l with
  | nil => exact List.Perm.refl _
  | cons y ys ih =>
    rw [insertBack]
    split
    · exact (List.Perm.cons y ih).trans (List.Perm.swap x y ys)
    · exact List.Perm.refl _

theorem foldl_insertBack_perm {α : Type} (less : α → α → Bool) : ∀ (l acc : List α),
    (l.foldl (fun acc x => insertBack less x acc) acc).Perm (l ++ acc) := by
  intro l
  induction l with
  | nil => intro acc; exact List.Perm.refl _
  | cons x l ih =>
    intro acc
    rw [List.foldl_cons]
    refine (ih _).trans ?_
    refine (List.Perm.append_left l (insertBack_perm less x acc)).trans ?_
    exact List.perm_middle

theorem stableSort_perm {α : Type} (less : α → α → Bool) (l : List α) : (stableSort less l).Perm l := by
  unfold stableSort
  refine (List.reverse_perm _).trans ?_
  have := foldl_insertBack_perm less l []
  rwa [List.append_nil] at this

theorem mem_stableSort {α : Type} (less : α → α → Bool) (l : List α) (x : α) : x ∈ stableSort less l ↔ x ∈ l :=
  (stableSort_perm less l).mem_iff

/-- A comparison that never puts an element with a smaller key after one with a greater key. -/
def Respects {α : Type} (less : α → α → Bool) (key : α → Nat) : Prop :=
  ∀ a b, (key a < key b → less a b = true) ∧ (key b < key a → less a b = false)

theorem insertBack_sorted {α : Type} {less : α → α → Bool} {key : α → Nat} (hr : Respects less key) (x : α) (l : List α)
    (h : l.Pairwise (fun a b => key b ≤ key a)) : (insertBack less x l).Pairwise (fun a b => key b ≤ key a) := by
  induction l with
  | nil => simp [insertBack]
  | cons y ys ih =>
    rw [insertBack]
    rw [List.pairwise_cons] at h
    split
    · rename_i hl
      have hk : key x ≤ key y := by
        rcases Nat.lt_or_ge (key y) (key x) with hlt | hge
        · rw [(hr x y).2 hlt] at hl; cases hl
        · exact hge
      rw [List.pairwise_cons]
      refine ⟨?_, ih h.2⟩
      intro z hz
      rcases List.mem_cons.1 ((insertBack_perm less x ys).mem_iff.1 hz) with rfl | hz
      · exact hk
      · exact h.1 z hz
    · rename_i hl
      have hk : key y ≤ key x := by
        rcases Nat.lt_or_ge (key x) (key y) with hlt | hge
        · exact absurd ((hr x y).1 hlt) hl
        · exact hge
      rw [List.pairwise_cons, List.pairwise_cons]
      refine ⟨?_, h⟩
      intro z hz
      rcases List.mem_cons.1 hz with rfl | hz
      · exact hk
      · exact Nat.le_trans (h.1 z hz) hk

/-- Sorting sorts by the key, whatever the comparison does among equal keys. -/
theorem stableSort_sorted {α : Type} {less : α → α → Bool} {key : α → Nat} (hr : Respects less key) (l : List α) :
    (stableSort less l).Pairwise (fun a b => key a ≤ key b) := by
  unfold stableSort
  rw [List.pairwise_reverse]
  have : ∀ (l acc : List α), acc.Pairwise (fun a b => key b ≤ key a) →
      (l.foldl (fun acc x => insertBack less x acc) acc).Pairwise (fun a b => key b ≤ key a) := by
    intro l
    induction l with
    | nil => intro acc h; exact h
    | cons x l ih => intro acc h; exact ih _ (insertBack_sorted hr x acc h)
  exact this l [] List.Pairwise.nil

/-- Two lists with the same elements, both strictly sorted by a key, are equal. -/
theorem sorted_perm_eq {α : Type} {key : α → Nat} : ∀ {l m : List α}, l.Perm m → l.Pairwise (fun a b => key a ≤ key b) →
    m.Pairwise (fun a b => key a < key b) → l = m := by
  intro l m
  induction m generalizing l with
  | nil => intro hp _ _; exact List.perm_nil.1 hp
  | cons y m ih =>
    intro hp hl hm
    cases l with
    | nil => exact absurd hp.length_eq (by simp)
    | cons x l =>
      rw [List.pairwise_cons] at hl hm
      have hxy : x = y := by
        have hx : x ∈ y :: m := hp.mem_iff.1 (by simp)
        have hy : y ∈ x :: l := hp.mem_iff.2 (by simp)
        rcases List.mem_cons.1 hx with h | h
        · exact h
        · rcases List.mem_cons.1 hy with h' | h'
          · exact h'.symm
          · have h1 := hm.1 x h
            have h2 := hl.1 y h'
            omega
      subst hxy
      rw [ih ((List.perm_cons x).1 hp) hl.2 hm.2]

theorem respects_pos : Respects (fun (a b : Nat × Resolved) => decide (a.1 < b.1)) (·.1) := by
  intro a b
  refine ⟨fun h => by simpa using h, fun h => ?_⟩
  simp only [decide_eq_false_iff_not]
  have : b.1 < a.1 := h
  omega

theorem respects_emph : Respects emphLess (fun e => e.1.1) := by
  intro a b
  unfold emphLess
  refine ⟨fun h => ?_, fun h => ?_⟩
  · have h : a.1.1 < b.1.1 := h
    rw [if_pos (by omega)]; simpa using h
  · have h : b.1.1 < a.1.1 := h
    rw [if_pos (by omega)]; simp; omega

end Louis
