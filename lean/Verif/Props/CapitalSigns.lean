import Verif.Props.Capitals
import Verif.Lemmas.Each

/-!
# C27: the capital signs a text must get
-/

namespace Louis

variable {x : CapIndicator} {chars : Text}

/-! ## Uniqueness -/

/-- A list in strict order is determined by its members. -/
theorem ordered_ext {α : Type} {r : α → α → Prop} (irr : ∀ a b, r a b → r b a → False) : ∀ {l l' : List α}, l.Pairwise r → l'.Pairwise r →
    (∀ a, a ∈ l ↔ a ∈ l') → l = l' := by
  intro l
  induction l with
  | nil =>
    intro l' _ _ h
    cases l' with
    | nil => rfl
    | cons a l' => exact absurd ((h a).2 (by simp)) (by simp)
  | cons a l ih =>
    intro l' h1 h2 h
    cases l' with
    | nil => exact absurd ((h a).1 (by simp)) (by simp)
    | cons b l' =>
      rw [List.pairwise_cons] at h1 h2
      have hab : a = b := by
        rcases List.mem_cons.1 ((h a).1 (by simp)) with e | e
        · exact e
        rcases List.mem_cons.1 ((h b).2 (by simp)) with e' | e'
        · exact e'.symm
        · exact (irr _ _ (h1.1 b e') (h2.1 a e)).elim
      subst hab
      congr 1
      refine ih h1.2 h2.2 ?_
      intro c
      constructor
      · intro hc
        rcases List.mem_cons.1 ((h c).1 (by simp [hc])) with e | e
        · subst e; exact (irr _ _ (h1.1 c hc) (h1.1 c hc)).elim
        · exact e
      · intro hc
        rcases List.mem_cons.1 ((h c).2 (by simp [hc])) with e | e
        · subst e; exact (irr _ _ (h2.1 c hc) (h2.1 c hc)).elim
        · exact e

/-- Runs that meet are the same. -/
theorem UpperRun.unique {a b c d p : Nat} (h : UpperRun x chars a b) (k : UpperRun x chars c d) (h1 : a ≤ p) (h2 : p < b) (h3 : c ≤ p)
    (h4 : p < d) : a = c ∧ b = d := by
  have key : ∀ {a b c d}, UpperRun x chars a b → UpperRun x chars c d → a ≤ p → p < b → c ≤ p → p < d → ¬ a < c ∧ ¬ b < d := by
    intro a b c d h k h1 h2 h3 h4
    constructor
    · intro hlt
      obtain ⟨q, q1, q2, q3⟩ := k.left a hlt h.first
      have := h.inside q q1 (by omega)
      rcases q3 with q3 | q3
      · exact q3 this.1
      · exact this.2 q3
    · intro hlt
      obtain ⟨q, q1, q2, q3⟩ := h.right (d - 1) (by omega) k.last
      have := k.inside q (by omega) (by omega)
      rcases q3 with q3 | q3
      · exact q3 this.1
      · exact this.2 q3
  have := key h k h1 h2 h3 h4
  have := key k h h3 h4 h1 h2
  omega

theorem AreWords.unique {ws ws' : List (Nat × Nat)} (h : AreWords x chars ws) (h' : AreWords x chars ws') : ws = ws' := by
  have hw := fun w => (h.1 w).trans (h'.1 w).symm
  have hne : ∀ w : Nat × Nat, IsWord x chars w.1 w.2 → w.1 < w.2 := fun w h => h.nonempty
  have irr : ∀ a b : Nat × Nat, (a.1 < a.2 ∧ b.1 < b.2 ∧ a.2 < b.1) → (b.1 < b.2 ∧ a.1 < a.2 ∧ b.2 < a.1) → False := by
    intro a b h k; omega
  refine ordered_ext (r := fun a b : Nat × Nat => a.1 < a.2 ∧ b.1 < b.2 ∧ a.2 < b.1) irr ?_ ?_ hw
  · exact h.2.imp_of_mem fun ha hb hab => ⟨hne _ ((h.1 _).1 ha), hne _ ((h.1 _).1 hb), hab⟩
  · exact h'.2.imp_of_mem fun ha hb hab => ⟨hne _ ((h'.1 _).1 ha), hne _ ((h'.1 _).1 hb), hab⟩

theorem RunsIn.unique {ws runs runs' : List (Nat × Nat)} (h : RunsIn x chars ws runs) (h' : RunsIn x chars ws runs') : runs = runs' := by
  have irr : ∀ a b : Nat × Nat, (a.1 < a.2 ∧ b.1 < b.2 ∧ a.2 < b.1) → (b.1 < b.2 ∧ a.1 < a.2 ∧ b.2 < a.1) → False := by
    intro a b h k; omega
  refine ordered_ext (r := fun a b : Nat × Nat => a.1 < a.2 ∧ b.1 < b.2 ∧ a.2 < b.1) irr ?_ ?_ (fun w => (h.1 w).trans (h'.1 w).symm)
  · exact h.2.imp_of_mem fun ha hb hab => ⟨((h.1 _).1 ha).1.nonempty, ((h.1 _).1 hb).1.nonempty, hab⟩
  · exact h'.2.imp_of_mem fun ha hb hab => ⟨((h'.1 _).1 ha).1.nonempty, ((h'.1 _).1 hb).1.nonempty, hab⟩

theorem GoesOnAt.unique {e q q' : Nat} (h : GoesOnAt x chars e q) (h' : GoesOnAt x chars e q') : q = q' := by
  obtain ⟨a, b, c⟩ := h
  obtain ⟨a', b', c'⟩ := h'
  rcases Nat.lt_trichotomy q q' with hl | hl | hl
  · have := (c' q a hl).2; rw [b.1] at this; cases this
  · exact hl
  · have := (c q' a' hl).2; rw [b'.1] at this; cases this

theorem GoesOnAt.not_ends {e q : Nat} (h : GoesOnAt x chars e q) : ¬ EndsWord x chars e := by
  obtain ⟨a, b, c⟩ := h
  intro hw
  have := hw q a (by
    intro k k1 k2
    rcases Nat.lt_or_ge k q with h | h
    · exact (c k k1 h).1
    · have : k = q := by omega
      subst this; exact letterAt_word b.1)
  rw [b.1] at this; cases this

theorem RunCapSigns.unique {p e : Nat} {out out' : List (Nat × Resolved)} (h : RunCapSigns x chars p e out) (h' : RunCapSigns x chars p e out') :
    out = out' := by
  have two : ∀ {t t' : Resolved} {ps ps' : List Nat}, x.capsletter = some t → x.capsletter = some t' → ps.Pairwise (· < ·) → ps'.Pairwise (· < ·) →
      (∀ i, i ∈ ps ↔ p ≤ i ∧ i < e ∧ x.upperAt chars i = true) → (∀ i, i ∈ ps' ↔ p ≤ i ∧ i < e ∧ x.upperAt chars i = true) →
      (ps.map fun i => (i, t)) = ps'.map fun i => (i, t') := by
    intro t t' ps ps' h1 h2 o1 o2 m1 m2
    rw [h1] at h2
    injection h2 with h2
    subst h2
    rw [ordered_ext (fun a b h k => by omega) o1 o2 fun i => (m1 i).trans (m2 i).symm]
  have clash : ∀ {q : Nat}, GoesOnAt x chars e q → EndsWord x chars e → False := fun h k => h.not_ends k
  cases h <;> cases h'
  case letters.letters => exact two ‹_› ‹_› ‹_› ‹_› ‹_› ‹_›
  all_goals grind [GoesOnAt.unique]

theorem RunsCapSigns.unique {runs : List (Nat × Nat)} {out out' : List (Nat × Resolved)} (h : RunsCapSigns x chars runs out)
    (h' : RunsCapSigns x chars runs out') : out = out' := by
  obtain ⟨ps, h1, rfl⟩ := h
  obtain ⟨ps', h2, rfl⟩ := h'
  rw [h1.functional h2 fun _ _ _ _ => RunCapSigns.unique]

theorem PhraseClose.unique {l : Nat × Nat} {out out' : List (Nat × Resolved)} (h : PhraseClose x chars l out)
    (h' : PhraseClose x chars l out') : out = out' := by
  cases h <;> cases h' <;> grind [RunCapSigns.unique]

theorem BlockSigns.unique {runs : List (Nat × Nat)} {out out' : List (Nat × Resolved)} (h : BlockSigns x chars runs out)
    (h' : BlockSigns x chars runs out') : out = out' := by
  cases h <;> cases h' <;> grind [PhraseClose.unique, RunsCapSigns.unique]

theorem maximal_prefix {α : Type} {P : α → Prop} : ∀ {bs bs' ws ws' : List α}, bs ++ ws = bs' ++ ws' → (∀ w ∈ bs, P w) → (∀ w ∈ bs', P w) →
    (∀ w, ws.head? = some w → ¬ P w) → (∀ w, ws'.head? = some w → ¬ P w) → bs = bs' ∧ ws = ws'
  | [], [], _, _, h, _, _, _, _ => ⟨rfl, h⟩
  | [], b :: bs', ws, ws', h, _, h2, h3, _ => by
    simp only [List.nil_append] at h
    subst h
    exact absurd (h2 b (by simp)) (h3 b rfl)
  | b :: bs, [], ws, ws', h, h1, _, _, h4 => by
    simp only [List.nil_append] at h
    subst h
    exact absurd (h1 b (by simp)) (h4 b rfl)
  | b :: bs, b' :: bs', ws, ws', h, h1, h2, h3, h4 => by
    simp only [List.cons_append, List.cons.injEq] at h
    obtain ⟨rfl, h⟩ := h
    obtain ⟨rfl, rfl⟩ := maximal_prefix h (fun w m => h1 w (by simp [m])) (fun w m => h2 w (by simp [m])) h3 h4
    exact ⟨rfl, rfl⟩

theorem CapSigns.unique {ws : List (Nat × Nat)} {out out' : List (Nat × Resolved)} (h : CapSigns x chars ws out)
    (h' : CapSigns x chars ws out') : out = out' := by
  induction h generalizing out' with
  | done =>
    generalize hl : ([] : List (Nat × Nat)) = l at h'
    cases h' with
    | done => rfl
    | mixed => cases hl
    | block h => exact absurd (List.append_eq_nil_iff.1 hl.symm).1 h
  | @mixed w ws runs out rest h1 h2 h3 _ ih =>
    generalize hl : w :: ws = l at h'
    cases h' with
    | done => cases hl
    | mixed k1 k2 k3 k4 =>
      injection hl with hl hl'
      subst hl hl'
      rw [h2.unique k2] at h3
      rw [h3.unique k3, ih k4]
    | @block bs _ _ _ _ k1 k2 k3 k4 k5 k6 =>
      cases bs with
      | nil => exact absurd rfl k1
      | cons b bs =>
        injection hl with hl hl'
        subst hl
        exact absurd (k2 w (by simp)) h1
  | @block bs ws runs out rest h1 h2 h3 h4 h5 _ ih =>
    generalize hl : bs ++ ws = l at h'
    cases h' with
    | done => exact absurd (List.append_eq_nil_iff.1 hl).1 h1
    | mixed k1 k2 k3 k4 =>
      cases bs with
      | nil => exact absurd rfl h1
      | cons b bs =>
        injection hl with hl hl'
        subst hl
        exact absurd (h2 b (by simp)) k1
    | block k1 k2 k3 k4 k5 k6 =>
      obtain ⟨rfl, rfl⟩ := maximal_prefix hl h2 k2 h3 k3
      rw [h4.unique k4] at h5
      rw [h5.unique k5, ih k6]

/-! ## The signs of runs -/

theorem signAt_toList (p : Nat) (o : Option Resolved) : (o.map fun t => (p, t)).toList = signAt p o := by
  cases o <;> rfl

/-- The last two tiers. -/
theorem modeTier_signs {p e : Nat} (hne : p < e) (hcount : e = p + 1 → x.capsletter = none)
    (h2 : x.begcapsword = none ∨ (x.endcapsword = none ∧ ∃ q, GoesOnAt x chars e q)) :
    RunCapSigns x chars p e (match x.begcaps with
      | some b => (p, b) :: (x.endcaps.map fun t => (e, t)).toList
      | none => x.letterwise chars p e) := by
  cases hb : x.begcaps with
  | some b =>
    simp only [signAt_toList]
    exact .mode hcount h2 hb
  | none =>
    simp only
    unfold CapIndicator.letterwise
    cases hl : x.capsletter with
    | none => exact .nothing h2 hb hl
    | some t =>
      have : p + 1 < e := by
        rcases Nat.lt_or_ge (p + 1) e with h | h
        · exact h
        · have := hcount (by omega); rw [hl] at this; cases this
      refine .letters this h2 hb hl (List.Pairwise.filter _ List.pairwise_lt_range') ?_
      intro i
      rw [List.mem_filter, List.mem_range'_1]
      constructor
      · rintro ⟨h, h'⟩; exact ⟨h.1, by omega, h'⟩
      · rintro ⟨a, b, c⟩; exact ⟨by omega, c⟩

theorem emitRun_signs {r : CapRun} {j : Nat} (hne : r.opn < r.close) (hc1 : r.count = 1 → r.close = r.opn + 1)
    (hc2 : r.count ≠ 1 → r.opn + 1 < r.close) (hj : r.close ≤ j)
    (hgap : ∀ k, r.close ≤ k → k < j → x.WordAt chars k ∧ x.letterAt chars k = false)
    (hend : (r.needsClose = true ∧ r.trigger = j ∧ x.LowAt chars j) ∨ (r.needsClose = false ∧ ¬ x.WordAt chars j)) :
    RunCapSigns x chars r.opn r.close (x.emitRun chars r) := by
  unfold CapIndicator.emitRun
  simp only
  split
  · next t ht =>
    split at ht
    · next hcount => exact .letter (hc1 hcount) ht
    · cases ht
  · next hcl =>
    have hcount : r.close = r.opn + 1 → x.capsletter = none := by
      intro h
      split at hcl
      · exact hcl
      · next h' => have := hc2 h'; omega
    split
    · next b hb =>
      split
      · next hn =>
        have hn : r.needsClose = false := by simpa using hn
        rcases hend with ⟨h, -⟩ | ⟨-, hw⟩
        · rw [hn] at h; cases h
        · refine .word hcount hb ?_
          intro q hq hk
          rcases Nat.lt_or_ge q j with h | h
          · exact (hgap q hq h).2
          · exact absurd (hk j hj h) hw
      · next hn =>
        have hn : r.needsClose = true := by simpa using hn
        rcases hend with ⟨-, ht, hlow⟩ | ⟨h, -⟩
        · have hg : GoesOnAt x chars r.close j := ⟨hj, hlow, hgap⟩
          split
          · next e he => rw [ht]; exact .terminated hcount hb hg he
          · next he => exact modeTier_signs hne hcount (.inr ⟨he, j, hg⟩)
        · rw [hn] at h; cases h
    · next hb => exact modeTier_signs hne hcount (.inl hb)

theorem RunsCapSigns.nil : RunsCapSigns x chars [] [] := ⟨[], .nil, rfl⟩

theorem RunsCapSigns.cons {r : Nat × Nat} {runs : List (Nat × Nat)} {o out : List (Nat × Resolved)} (h : RunCapSigns x chars r.1 r.2 o)
    (h' : RunsCapSigns x chars runs out) : RunsCapSigns x chars (r :: runs) (o ++ out) := by
  obtain ⟨ps, h1, rfl⟩ := h'
  exact ⟨o :: ps, .cons h h1, rfl⟩

/-- All runs of a word from position `i` on. -/
theorem upperRuns_signs {s stop : Nat} (hw : IsWord x chars s stop) : ∀ (fuel i : Nat), stop - i ≤ fuel → s ≤ i → i ≤ stop →
    (∀ j, j < i → x.upperAt chars j = true → ∃ k, j ≤ k ∧ k ≤ i ∧ (¬ x.WordAt chars k ∨ x.LowAt chars k)) →
    ∃ runs : List (Nat × Nat), RunsCapSigns x chars runs ((x.upperRuns chars stop fuel i).flatMap (x.emitRun chars)) ∧
      (∀ r ∈ runs, UpperRun x chars r.1 r.2 ∧ i ≤ r.1 ∧ r.2 ≤ stop) ∧ runs.Pairwise (fun r s => r.2 < s.1) ∧
      ∀ k, i ≤ k → k < stop → x.upperAt chars k = true → ∃ r ∈ runs, r.1 ≤ k ∧ k < r.2 := by
  intro fuel
  induction fuel with
  | zero =>
    intro i hf hs hi _
    exact ⟨[], .nil, by simp, by simp, by intro k a b; omega⟩
  | succ fuel ih =>
    intro i hf hs hi hleft
    rw [CapIndicator.upperRuns]
    split
    · exact ⟨[], .nil, by simp, by simp, by intro k a b; omega⟩
    · next hlt =>
      split
      · next hu =>
        obtain ⟨c, n, j, h1, h2, h3, h4, h5, h6, h7, h8, h9⟩ := extend_spec (x := x) (chars := chars) stop (stop - i) (i + 1) (i + 1) 1 (by omega)
          (Nat.le_refl _) (by intro k a b; omega)
        rw [h1]
        simp only
        have hj : j ≤ stop := by rcases h3 with h | h <;> omega
        have hword : ∀ k, i ≤ k → k < j → x.WordAt chars k := fun k a b => hw.inside k (by omega) (by omega)
        have hrun : UpperRun x chars i c := by
          refine ⟨by omega, hu, ?_, ?_, ?_, ?_⟩
          rotate_right
          · intro q a b
            obtain ⟨k, k1, k2, k3⟩ := hleft q a b
            refine ⟨k, k1, ?_, k3⟩
            have : k ≠ i := by
              rintro rfl
              rcases k3 with k3 | k3
              · exact k3 (letterAt_word (upperAt_letterAt hu))
              · rw [k3.2] at hu; cases hu
            omega
          · rcases h9 with ⟨rfl, -⟩ | ⟨-, -, h⟩
            · simpa using hu
            · exact h
          · intro k a b
            refine ⟨hword k a (by omega), ?_⟩
            by_cases hk : k = i
            · subst hk; intro hl; rw [hl.2] at hu; cases hu
            · exact h6 k (by omega) (by omega)
          · intro q a b
            rcases Nat.lt_or_ge q j with h | h
            · have := h7 q a h
              rw [upperAt_letterAt b] at this; cases this
            · refine ⟨j, h5, h, ?_⟩
              rcases h8 with h8 | h8
              · have : j = stop := by omega
                subst this; exact .inl hw.after
              · exact .inr h8
        have hfollow : ((List.range' c (stop - c)).find? (x.letterAt chars) = some j ∧ x.LowAt chars j ∧ j < stop) ∨
            ((List.range' c (stop - c)).find? (x.letterAt chars) = none ∧ j = stop) := by
          rcases Nat.lt_or_ge j stop with hjs | hjs
          · rcases h8 with h8 | h8
            · omega
            · refine .inl ⟨?_, h8, hjs⟩
              rw [List.find?_range'_eq_some]
              refine ⟨h8.1, ?_, ?_⟩
              · rw [List.mem_range'_1]; omega
              · intro k a b; rw [h7 k a b]; rfl
          · refine .inr ⟨?_, by omega⟩
            rw [List.find?_eq_none]
            intro k hk
            rw [List.mem_range'_1] at hk
            rw [h7 k (by omega) (by omega)]; simp
        have hsig := emitRun_signs (x := x) (chars := chars) (j := j)
          (r := ⟨i, c, n, ((List.range' c (stop - c)).find? (x.letterAt chars)).isSome,
            ((List.range' c (stop - c)).find? (x.letterAt chars)).getD c⟩) hrun.nonempty
          (by
            intro hn
            rcases h9 with ⟨h, -⟩ | ⟨-, h, -⟩
            · exact h
            · simp only at hn; omega)
          (by
            intro hn
            rcases h9 with ⟨-, h⟩ | ⟨h, -, -⟩
            · exact absurd h hn
            · simp only; omega)
          h5 (fun k a b => ⟨hword k (by simp only at a; omega) b, h7 k a b⟩)
          (by
            rcases hfollow with ⟨a, b, -⟩ | ⟨a, b⟩
            · left; simp [a, b]
            · right; rw [a]; subst b; exact ⟨rfl, hw.after⟩)
        obtain ⟨runs, k1, k2, k3, k4⟩ := ih j (by omega) (by omega) hj (by
          intro q a b
          rcases Nat.lt_or_ge q i with h | h
          · obtain ⟨k, k1, k2, k3⟩ := hleft q h b
            exact ⟨k, k1, by omega, k3⟩
          · refine ⟨j, by omega, Nat.le_refl _, ?_⟩
            rcases h8 with h8 | h8
            · have : j = stop := by omega
              subst this; exact .inl hw.after
            · exact .inr h8)
        have hju : x.upperAt chars j = false := by
          rcases hfollow with ⟨-, b, -⟩ | ⟨-, rfl⟩
          · exact b.2
          · cases hu : x.upperAt chars j with
            | false => rfl
            | true => exact absurd (letterAt_word (upperAt_letterAt hu)) hw.after
        refine ⟨(i, c) :: runs, ?_, ?_, ?_, ?_⟩
        · rw [List.flatMap_cons]
          exact .cons hsig k1
        · intro r hr
          rcases List.mem_cons.1 hr with rfl | hr
          · exact ⟨hrun, Nat.le_refl _, by simp only; omega⟩
          · obtain ⟨a, b, c⟩ := k2 r hr
            exact ⟨a, by omega, c⟩
        · rw [List.pairwise_cons]
          refine ⟨?_, k3⟩
          intro r hr
          obtain ⟨a, b, -⟩ := k2 r hr
          have : r.1 ≠ j := by
            intro h
            have := a.first
            rw [h, hju] at this; cases this
          simp only
          omega
        · intro k a b d
          rcases Nat.lt_or_ge k c with h | h
          · exact ⟨(i, c), by simp, a, h⟩
          · rcases Nat.lt_or_ge k j with h' | h'
            · have := h7 k h h'
              rw [upperAt_letterAt d] at this; cases this
            · obtain ⟨r, hr, h⟩ := k4 k h' b d
              exact ⟨r, by simp [hr], h⟩
      · next hu =>
        have hu : x.upperAt chars i = false := by simpa using hu
        obtain ⟨runs, k1, k2, k3, k4⟩ := ih (i + 1) (by omega) (by omega) (by omega) (by
          intro q a b
          rcases Nat.lt_or_ge q i with h | h
          · obtain ⟨k, k1, k2, k3⟩ := hleft q h b
            exact ⟨k, k1, by omega, k3⟩
          · have : q = i := by omega
            rw [this, hu] at b; cases b)
        refine ⟨runs, k1, fun r hr => ⟨(k2 r hr).1, by have := (k2 r hr).2.1; omega, (k2 r hr).2.2⟩, k3, ?_⟩
        intro k a b c
        have : k ≠ i := by rintro rfl; rw [hu] at c; cases c
        exact k4 k (by omega) b c

theorem partialWord_signs {s e : Nat} (hw : IsWord x chars s e) :
    ∃ runs, RunsIn x chars [(s, e)] runs ∧ RunsCapSigns x chars runs (x.partialWord chars s e) := by
  obtain ⟨runs, h1, h2, h3, h4⟩ := upperRuns_signs hw (e - s) s (Nat.le_refl _) (Nat.le_refl _) (Nat.le_of_lt hw.nonempty) (by
    intro j hj _
    exact ⟨s - 1, by omega, by omega, .inl (hw.before (by omega))⟩)
  refine ⟨runs, ⟨?_, h3⟩, h1⟩
  intro r
  constructor
  · intro hr
    obtain ⟨a, b, c⟩ := h2 r hr
    exact ⟨a, (s, e), by simp, b, c⟩
  · rintro ⟨a, w, hw', b, c⟩
    simp only [List.mem_singleton] at hw'
    subst hw'
    simp only at b c
    have hne := a.nonempty
    obtain ⟨r', hr', k1, k2⟩ := h4 r.1 b (by omega) a.first
    obtain ⟨e1, e2⟩ := (h2 r' hr').1.unique a k1 k2 (Nat.le_refl _) hne
    have : r' = r := by cases r; cases r'; simp only at e1 e2; rw [e1, e2]
    rw [← this]; exact hr'

/-! ## Words in upper case -/

theorem classify_capWord {s e : Nat} (hw : IsWord x chars s e) {g : Nat × Nat × Nat} (h : x.classify chars s e = some g) :
    CapWord x chars (s, e) := by
  obtain ⟨h1, h2, h3, h4⟩ := classify_spec hw h
  have hne := h1.run.nonempty
  refine ⟨⟨g.1, h2, by simp only; omega, upperAt_letterAt h1.run.first⟩, ?_⟩
  intro i a b hl
  have := (h4 i a b hl.1).1
  rw [hl.2] at this; cases this

theorem classify_none {s e : Nat} (h : x.classify chars s e = none) : ¬ CapWord x chars (s, e) := by
  rintro ⟨⟨i, a, b, c⟩, hl⟩
  simp only at a b hl
  unfold CapIndicator.classify at h
  simp only at h
  have hi : i ∈ x.letterPositions chars s e := by
    rw [CapIndicator.letterPositions, List.mem_filter, List.mem_range'_1]
    exact ⟨by omega, c⟩
  have hall : (x.letterPositions chars s e).all (x.upperAt chars) = true := by
    rw [List.all_eq_true]
    intro k hk
    rw [CapIndicator.letterPositions, List.mem_filter, List.mem_range'_1] at hk
    rcases letterAt_cases hk.2 with h | h
    · exact h
    · exact absurd h (hl k hk.1.1 (by omega))
  generalize x.letterPositions chars s e = ls at h hi hall
  cases ls with
  | nil => cases hi
  | cons y ys =>
    rw [hall] at h
    cases hg : (y :: ys).getLast? with
    | none => simp at hg
    | some z => rw [hg] at h; simp at h

theorem wholeWord_signs {g : Nat × Nat × Nat} (hw : Whole x chars g) : RunCapSigns x chars g.1 g.2.1 (x.wholeWord chars g) := by
  have hne := hw.run.nonempty
  unfold CapIndicator.wholeWord
  split
  · next t ht =>
    split at ht
    · next hcount => exact .letter (hw.one hcount) ht
    · cases ht
  · next hcl =>
    have hcount : g.2.1 = g.1 + 1 → x.capsletter = none := by
      intro h
      split at hcl
      · exact hcl
      · next h' => have := hw.many h'; omega
    split
    · next b hb => exact .word hcount hb hw.after
    · next hb => exact modeTier_signs hne hcount (.inl hb)

/-- The words of a group. -/
def GroupOf (x : CapIndicator) (chars : Text) (bs : List (Nat × Nat)) (gs : List (Nat × Nat × Nat)) : Prop :=
  Each (fun w g => IsWord x chars w.1 w.2 ∧ x.classify chars w.1 w.2 = some g) bs gs

theorem GroupOf.runs {bs : List (Nat × Nat)} {gs : List (Nat × Nat × Nat)} (h : GroupOf x chars bs gs)
    (ho : bs.Pairwise (fun v w => v.2 < w.1)) : RunsIn x chars bs (runsOf gs) ∧ (∀ w ∈ bs, CapWord x chars w) ∧
      ∀ g ∈ gs, Whole x chars g := by
  unfold GroupOf at h
  induction h with
  | nil => exact ⟨⟨by simp [runsOf], by simp [runsOf]⟩, by simp, by simp⟩
  | @cons w g bs gs h _ ih =>
    rw [List.pairwise_cons] at ho
    obtain ⟨⟨h1, h2⟩, h3, h5⟩ := ih ho.2
    obtain ⟨c1, c2, c3, c4⟩ := classify_spec h.1 h.2
    have hne := c1.run.nonempty
    refine ⟨⟨?_, ?_⟩, ?_, ?_⟩
    · intro r
      show r ∈ (g.1, g.2.1) :: runsOf gs ↔ _
      rw [List.mem_cons, h1]
      constructor
      · rintro (rfl | ⟨a, v, hv, b⟩)
        · exact ⟨c1.run, w, by simp, c2, c3⟩
        · exact ⟨a, v, by simp [hv], b⟩
      · rintro ⟨a, v, hv, b, c⟩
        rcases List.mem_cons.1 hv with rfl | hv
        · left
          have hr := a.nonempty
          obtain ⟨-, k1, k2⟩ := c4 r.1 b (by omega) (upperAt_letterAt a.first)
          obtain ⟨e1, e2⟩ := c1.run.unique a k1 k2 (Nat.le_refl _) hr
          cases r; simp only at e1 e2; rw [e1, e2]
        · exact .inr ⟨a, v, hv, b, c⟩
    · show ((g.1, g.2.1) :: runsOf gs).Pairwise _
      rw [List.pairwise_cons]
      refine ⟨?_, h2⟩
      intro r hr
      obtain ⟨-, v, hv, b, -⟩ := (h1 r).1 hr
      have := ho.1 v hv
      simp only
      omega
    · intro v hv
      rcases List.mem_cons.1 hv with rfl | hv
      · exact classify_capWord h.1 h.2
      · exact h3 v hv
    · intro g' hg'
      rcases List.mem_cons.1 hg' with rfl | hg'
      · exact c1
      · exact h5 g' hg'

theorem perWord_signs {gs : List (Nat × Nat × Nat)} (h : ∀ g ∈ gs, Whole x chars g) :
    RunsCapSigns x chars (runsOf gs) (gs.flatMap (x.wholeWord chars)) := by
  induction gs with
  | nil => exact .nil
  | cons g gs ih =>
    rw [List.flatMap_cons]
    exact .cons (r := (g.1, g.2.1)) (wholeWord_signs (h g (by simp))) (ih fun g' m => h g' (by simp [m]))

theorem group_signs {first : Nat × Nat × Nat} {others : List (Nat × Nat × Nat)} (hw : ∀ g ∈ first :: others, Whole x chars g) :
    BlockSigns x chars (runsOf (first :: others)) (x.group chars first others (spacedWords x chars (runsOf (first :: others)))) := by
  have hf : (runsOf (first :: others)).head? = some (first.1, first.2.1) := rfl
  have hl : (runsOf (first :: others)).getLast? = some ((lastOf first others).1, (lastOf first others).2.1) := by
    unfold runsOf
    rw [List.getLast?_map, lastOf_getLast]; rfl
  unfold CapIndicator.group
  simp only
  split
  · next hlen =>
    cases hb : x.begcapsphrase with
    | some b =>
      simp only
      refine .phrase (f := (first.1, first.2.1)) hlen hb hf hl ?_
      cases he : x.endcapsphrase with
      | none => simp only [signAt_toList]; exact .mode he
      | some t =>
        simp only
        cases hbf : x.endcapsphraseBefore with
        | true => exact .before he hbf (wholeWord_signs (hw _ (lastOf_mem _ _)))
        | false => exact .after he hbf
    | none =>
      simp only
      cases hbc : x.begcaps with
      | some b =>
        simp only [signAt_toList]
        exact .mode (f := (first.1, first.2.1)) hlen hb hbc hf hl
      | none => exact .words (.inr ⟨hb, hbc⟩) (perWord_signs hw)
  · next hlen => exact .words (.inl (by omega)) (perWord_signs hw)

theorem GroupOf.snoc {bs : List (Nat × Nat)} {gs : List (Nat × Nat × Nat)} {w : Nat × Nat} {g : Nat × Nat × Nat} (h : GroupOf x chars bs gs)
    (hw : IsWord x chars w.1 w.2) (hc : x.classify chars w.1 w.2 = some g) : GroupOf x chars (bs ++ [w]) (gs ++ [g]) :=
  Each.append h (.cons ⟨hw, hc⟩ .nil)

/-- The number of words so far. -/
theorem spacedWords_runsOf (gs : List (Nat × Nat × Nat)) (t : Nat × Nat × Nat) :
    spacedWords x chars (runsOf (gs ++ [t])) =
      if (match gs.getLast?.map (·.2.1) with
        | some p => ((chars.take t.1).drop p).any (x.spaces.contains ·)
        | none => true) then spacedWords x chars (runsOf gs) + 1 else spacedWords x chars (runsOf gs) := by
  rcases List.eq_nil_or_concat gs with rfl | ⟨y, u, rfl⟩
  · simp [runsOf, spacedWords]
  · rw [List.concat_eq_append]
    have := spacedWords_snoc (x := x) (chars := chars) (u.1, u.2.1) (t.1, t.2.1) (y.map fun g => (g.1, g.2.1)) (by simp)
    unfold runsOf
    simp only [List.map_append, List.map_cons, List.map_nil, this, List.getLast?_append, List.getLast?_singleton, Option.some_or, Option.map_some]
    split <;> rfl

theorem loop_signs : ∀ (ws bs : List (Nat × Nat)) (group : List (Nat × Nat × Nat)), (∀ w ∈ ws, IsWord x chars w.1 w.2) →
    (bs ++ ws).Pairwise (fun v w => v.2 < w.1) → GroupOf x chars bs group →
    CapSigns x chars (bs ++ ws) (x.loop chars ws group (spacedWords x chars (runsOf group)) (group.getLast?.map (·.2.1))) := by
  intro ws
  induction ws with
  | nil =>
    intro bs group _ ho hg
    rw [List.append_nil] at ho ⊢
    obtain ⟨h1, h2, h3⟩ := hg.runs ho
    cases hg with
    | nil => exact .done
    | cons h hs =>
      rw [CapIndicator.loop]
      have := CapSigns.block (ws := []) (by simp) h2 (by simp) h1 (group_signs h3) .done
      simpa using this
  | cons w ws ih =>
    obtain ⟨s, e⟩ := w
    intro bs group hws ho hg
    have hw := hws (s, e) (by simp)
    simp only at hw
    rw [CapIndicator.loop.eq_def]
    simp only
    cases hcl : x.classify chars s e with
    | some t =>
      simp only
      have := ih (bs ++ [(s, e)]) (group ++ [t]) (fun w m => hws w (by simp [m])) (by simpa using ho) (hg.snoc hw hcl)
      rw [spacedWords_runsOf] at this
      simp only [List.getLast?_append, List.getLast?_singleton, Option.some_or, Option.map_some, List.append_assoc, List.cons_append,
        List.nil_append] at this
      exact this
    | none =>
      have hnot := classify_none hcl
      obtain ⟨runs, r1, r2⟩ := partialWord_signs hw
      have hrest := ih [] [] (fun w m => hws w (by simp [m]))
        (by rw [List.pairwise_append, List.pairwise_cons] at ho; exact ho.2.1.2) .nil
      have hmixed := CapSigns.mixed hnot r1 r2 hrest
      have hob : bs.Pairwise (fun v w => v.2 < w.1) := (List.pairwise_append.1 ho).1
      obtain ⟨h1, h2, h3⟩ := hg.runs hob
      cases hg with
      | nil => simpa [runsOf, spacedWords] using hmixed
      | cons h hs =>
        simp only
        have := CapSigns.block (ws := (s, e) :: ws) (by simp) h2 (by simp; exact hnot) h1 (group_signs h3) hmixed
        simpa [runsOf, spacedWords] using this

/-! ## The property -/

theorem words_areWords (x : CapIndicator) (chars : Text) : AreWords x chars (x.words chars) := by
  obtain ⟨w1, w2, w3⟩ := words_spec (x := x) (chars := chars)
  refine ⟨fun w => ⟨w1 w, ?_⟩, w2⟩
  intro hw
  have hne := hw.nonempty
  obtain ⟨v, hv, a, b⟩ := w3 w.1 (hw.inside w.1 (Nat.le_refl _) hne)
  have hv' := w1 v hv
  have e1 : v.1 = w.1 := by
    rcases Nat.lt_or_ge v.1 w.1 with h | h
    · exact absurd (hv'.inside (w.1 - 1) (by omega) (by omega)) (hw.before (by omega))
    · omega
  have e2 : v.2 = w.2 := by
    rcases Nat.lt_trichotomy v.2 w.2 with h | h | h
    · exact absurd (hw.inside v.2 (by omega) h) hv'.after
    · exact h
    · exact absurd (hv'.inside w.2 (by omega) h) hw.after
  have : v = w := by cases v; cases w; simp only at e1 e2; rw [e1, e2]
  rw [← this]; exact hv

theorem loop_sorted (x : CapIndicator) (input : Text) :
    (x.loop input (x.words input) [] 0 none).Pairwise (fun a b => a.1 ≤ b.1) := by
  obtain ⟨w1, w2, w3⟩ := words_spec (x := x) (chars := input)
  obtain ⟨ps, p1, p2⟩ := loop_pieces (x := x) (chars := input) (x.words input) 0 [] 0 none (Nat.zero_le _)
    (fun w h => ⟨w1 w h, Nat.zero_le _⟩) (by simp) w2 (fun i _ h => w3 i h) ⟨rfl, rfl⟩
  rw [p1, List.pairwise_flatMap]
  refine ⟨fun m hm => (CapPiece.emit_sorted (p2.valid m hm).2.2).1, p2.order.imp_of_mem ?_⟩
  intro a b ha hb hab u hu v hv'
  have h1 := (CapPiece.emit_sorted (p2.valid a ha).2.2).2 u hu
  have h2 := (CapPiece.emit_sorted (p2.valid b hb).2.2).2 v hv'
  omega

/-- **C27**, exactly: the capital signs of a text, with their positions and in their order, are those `CapSigns` demands of its
words, and no other list is. -/
theorem C27_signs (x : CapIndicator) (input : Text) (hx : x.isIndicating = true) (ws : List (Nat × Nat)) (hws : AreWords x input ws)
    (out : List (Nat × Resolved)) : x.precompute input = out ↔ CapSigns x input ws out := by
  have hw := words_areWords x input
  rw [hws.unique hw]
  have h : CapSigns x input (x.words input) (x.precompute input) := by
    unfold CapIndicator.precompute
    rw [hx]
    simp only [Bool.not_true, Bool.false_eq_true, if_false]
    rw [sortByPos_self _ (loop_sorted x input)]
    exact loop_signs (x.words input) [] [] (fun w m => (hw.1 w).1 m) (by simpa using hw.2) .nil
  constructor
  · rintro rfl; exact h
  · exact fun h' => h.unique h'

/-- Every text has its list of words. -/
theorem C27_words (x : CapIndicator) (input : Text) : ∃ ws, AreWords x input ws ∧ ∀ ws', AreWords x input ws' → ws' = ws :=
  ⟨_, words_areWords x input, fun _ h => h.unique (words_areWords x input)⟩

/-- **C27**, a finding: with `endcapsphrase … before` the sign of that line is never written; the phrase is closed by the
signs of its last word instead.  (`q` is the `endcapsphrase` sign.) -/
theorem C27_endcapsphrase_before_wrong (x : CapIndicator) (input : Text) (t : Resolved) (ht : x.endcapsphrase = some t)
    (hb : x.endcapsphraseBefore = true) (n1 : x.capsletter ≠ some t) (n2 : x.begcapsword ≠ some t) (n3 : x.begcaps ≠ some t)
    (n4 : x.endcaps ≠ some t) (n5 : x.begcapsphrase ≠ some t) (n6 : x.endcapsword ≠ some t) (p : Nat) :
    (p, t) ∉ x.precompute input := by
  intro hq
  cases hx : x.isIndicating with
  | false => simp [CapIndicator.precompute, hx] at hq
  | true =>
    have h := (C27_signs x input hx _ (words_areWords x input) _).1 rfl
    generalize x.precompute input = out at h hq
    generalize x.words input = ws at h
    have hsa : ∀ {i : Nat} {o : Option Resolved}, o ≠ some t → (p, t) ∉ signAt i o := by
      intro i o ho
      cases o with
      | none => simp [signAt]
      | some u => simp only [signAt, List.mem_singleton, Prod.mk.injEq]; rintro ⟨-, rfl⟩; exact ho rfl
    have hrun : ∀ {a b : Nat} {o : List (Nat × Resolved)}, RunCapSigns x input a b o → (p, t) ∉ o := by
      intro a b o h
      cases h <;> grind
    have hruns : ∀ {rs : List (Nat × Nat)} {o : List (Nat × Resolved)}, RunsCapSigns x input rs o → (p, t) ∉ o := by
      rintro rs o ⟨parts, h, rfl⟩
      induction h with
      | nil => simp
      | cons h _ ih =>
        rw [List.flatten_cons, List.mem_append]
        rintro (h' | h')
        · exact hrun h h'
        · exact ih h'
    induction h with
    | done => cases hq
    | mixed _ _ h _ ih =>
      rcases List.mem_append.1 hq with hq | hq
      · exact hruns h hq
      · exact ih hq
    | block _ _ _ _ h _ ih =>
      rcases List.mem_append.1 hq with hq | hq
      · cases h with
        | phrase _ _ _ _ hc =>
          cases hc <;> grind
        | mode => grind
        | words _ h => exact hruns h hq
      · exact ih hq

/-- A phrase with `endcapsphrase` before the last word: the sign `q` is missing, the last word has its own sign. -/
example : (({demoCap with endcapsphraseBefore := true} : CapIndicator).precompute "AB CD EF".toList).map (fun q => (q.1, q.2.output)) =
    [(0, ['p']), (6, ['w'])] := by
  decide +kernel

/-- Non-vacuity of `C27_signs`: the words of a text with a mixed word, a letter and a phrase. -/
example : demoCap.words "An IBM-PC ABCde AB C DE".toList = [(0, 2), (3, 9), (10, 15), (16, 18), (19, 20), (21, 23)] := by
  decide +kernel

end Louis
