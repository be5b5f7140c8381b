import Verif.Spec.Words
import Verif.Lemmas.TrieOrder
import Verif.Props.WordsRun
import Verif.Props.MainTables

/-!
# C75: nothing in the dictionaries reaches across a blank
-/

namespace Louis

theorem spells_has {lower : Char → List Char} {x w : Text} (h : Spells lower x w) {c l : Char} (hc : c ∈ x) (hl : lower c = [l]) :
    l ∈ w := by
  obtain ⟨l', h1, h2⟩ := spells_mem h hc
  rw [hl] at h1
  cases h1
  exact h2

theorem blank_neighbour {cl : CharClasses} {b : Char} (hb : Blank cl b) (ks : List CharClass) :
    NeighbourIn cl ks (some b) ↔ NeighbourIn cl ks none := by
  constructor
  · rintro ⟨k, hk, h⟩
    rw [hb.only k h] at hk
    exact hk
  · intro h; exact ⟨_, h, hb.space⟩

theorem blank_head {cl : CharClasses} {b : Char} (hb : Blank cl b) (ks : List CharClass) (u v : Text) :
    NeighbourIn cl ks (u ++ b :: v).head? ↔ NeighbourIn cl ks u.head? := by
  cases u with
  | nil => exact blank_neighbour hb ks
  | cons => exact Iff.rfl

/-- A line whose text does not contain the blank applies before it as at the end of the text. -/
theorem matches_left {cl : CharClasses} {lower : Char → List Char} {b : Char} (hb : Blank cl b) (hl : lower b = [b])
    {d : Direction} {r : TrieRule} (hr : b ∉ r.from d) (u v : Text) (prev : Option Char) :
    RuleMatches cl lower d r (u ++ b :: v) prev ↔ RuleMatches cl lower d r u prev := by
  constructor
  · rintro ⟨x, y, e, hs, h1, h2, h3, h4⟩
    obtain ⟨a, rfl, rfl⟩ : ∃ a, u = x ++ a ∧ y = a ++ b :: v := by
      rcases List.append_eq_append_iff.1 e with ⟨a, e1, e2⟩ | ⟨a, e1, e2⟩
      · cases a with
        | nil => exact ⟨[], by simpa using e1.symm, by simpa using e2.symm⟩
        | cons c a =>
          rw [List.cons_append] at e2
          injection e2 with e2 e3
          subst e2
          exact absurd (spells_has hs (by rw [e1]; simp) hl) hr
      · exact ⟨a, e1, e2⟩
    exact ⟨x, a, rfl, hs, h1, fun ks hk => (blank_head hb ks a v).1 (h2 ks hk), h3,
      fun k hk => (blank_head hb [k] a v).1 (h4 k hk)⟩
  · rintro ⟨x, y, rfl, hs, h1, h2, h3, h4⟩
    exact ⟨x, y ++ b :: v, by simp, hs, h1, fun ks hk => (blank_head hb ks y v).2 (h2 ks hk), h3,
      fun k hk => (blank_head hb [k] y v).2 (h4 k hk)⟩

/-- A line applies after a blank as at the beginning of the text. -/
theorem matches_right {cl : CharClasses} {lower : Char → List Char} {b : Char} (hb : Blank cl b) {d : Direction} {r : TrieRule}
    (v : Text) : RuleMatches cl lower d r v (some b) ↔ RuleMatches cl lower d r v none := by
  simp only [RuleMatches, blank_neighbour hb]

theorem dictionary_nonempty {cl : CharClasses} {d : Direction} : ∀ {rules : List TrieRule} {t t' : Trie},
    Trie.insertAll cl d rules t = some t' → ∀ r ∈ rules, r.from d ≠ []
  | [], _, _, _, r, hr => by cases hr
  | x :: xs, t, t', h, r, hr => by
    simp only [Trie.insertAll, Trie.insert] at h
    split at h
    · cases h
    · next hne =>
      rcases List.mem_cons.1 hr with rfl | hr
      · exact hne
      · exact dictionary_nonempty h r hr

theorem Dictionary.nonempty {cl : CharClasses} {d : Direction} {rules : List TrieRule} {t : Trie} (h : Dictionary cl d rules t) :
    ∀ r ∈ rules, r.from d ≠ [] := by
  obtain ⟨t, h, -⟩ := h
  exact dictionary_nonempty h

theorem Dictionary.sizes {cl : CharClasses} {lower : Char → List Char} {d : Direction} {rules : List TrieRule} {t : Trie}
    (h : Dictionary cl d rules t) : Sizes (t.find lower) := by
  intro rest prev o ho
  obtain ⟨r, hr, ⟨x, y, rfl, hs, -⟩, hf⟩ := C13_found_rule_applies cl lower d rules t h rest prev o ho
  have := h.nonempty r hr
  have := List.length_pos_iff.2 this
  have hl := spells_length hs
  refine ⟨by rw [hf.length]; exact this, by rw [hf.length, hf.input], ?_⟩
  rw [hf.length, List.length_append]
  omega

section

variable {cl : CharClasses} {lower : Char → List Char} {d : Direction} {rules : List TrieRule} {t : Trie} {b : Char}

theorem find_left (h : Dictionary cl d rules t) (hb : Blank cl b) (hl : lower b = [b]) (hr : ∀ r ∈ rules, b ∉ r.from d)
    (u v : Text) (prev : Option Char) : t.find lower (u ++ b :: v) prev = t.find lower u prev :=
  h.find_same fun r hm => matches_left hb hl (hr r hm) u v prev

theorem find_nil (h : Dictionary cl d rules t) (prev : Option Char) : t.find lower [] prev = [] := by
  cases e : t.find lower [] prev with
  | nil => rfl
  | cons o l =>
    have := h.sizes (lower := lower) [] prev o (by rw [e]; simp)
    simp only [List.length_nil] at this
    omega

theorem find_blank (h : Dictionary cl d rules t) (hb : Blank cl b) (hl : lower b = [b]) (hr : ∀ r ∈ rules, b ∉ r.from d)
    (v : Text) (prev : Option Char) : t.find lower (b :: v) prev = [] :=
  (find_left h hb hl hr [] v prev).trans (find_nil h prev)

theorem seam_left (h : Dictionary cl d rules t) (hb : Blank cl b) (hl : lower b = [b]) (hr : ∀ r ∈ rules, b ∉ r.from d)
    (w v : Text) (last : Option Char) : SeamIn (t.find lower) w (b :: v) last :=
  ⟨fun a u prev _ _ => find_left h hb hl hr u v prev, (find_blank h hb hl hr v last).trans (find_blank h hb hl hr v none).symm⟩

theorem seam_right (h : Dictionary cl d rules t) (hb : Blank cl b) (hl : lower b = [b]) (hr : ∀ r ∈ rules, b ∉ r.from d)
    (v : Text) : SeamIn (t.find lower) [b] v (some b) := by
  refine ⟨fun a u prev e hu => ?_, h.find_same fun r _ => matches_right hb v⟩
  have : u = [b] := by
    cases a with
    | nil => exact e.symm
    | cons c a =>
      rw [List.cons_append] at e
      injection e with _ e
      exact absurd (List.append_eq_nil_iff.1 e.symm).2 hu
  subst this
  exact (find_blank h hb hl hr v prev).trans (find_blank h hb hl hr [] prev).symm

end

/-- What the dictionaries of a stage do not contain. -/
structure NoBlank (ops : List PrimOp) (d : Direction) (b : Char) : Prop where
  entries : ∀ e ∈ trieRules d ops, b ∉ e.from d
  unbroken : ∀ e ∈ nocrossRules ops, b ∉ e.from d
  computer : ∀ e ∈ comp6Rules ops, b ∉ e.from d

section

variable {ctx : PrimCtx} {d : Direction} {ops : List PrimOp} {t : PrimaryTable} {lower : Char → List Char} {b : Char}

theorem listing_sized (h : PrimOk ctx d ops t) : (listing t lower).Sized := ⟨h.trie.sizes, h.nocross.sizes, h.comp6.sizes⟩

theorem listing_left (h : PrimOk ctx d ops t) (hb : Blank ctx.trieClasses b) (hl : lower b = [b]) (hn : NoBlank ops d b)
    (w v : Text) (last : Option Char) : (listing t lower).Seam w (b :: v) last :=
  ⟨seam_left h.trie hb hl hn.entries w v last, seam_left h.nocross hb hl hn.unbroken w v last,
    seam_left h.comp6 hb hl hn.computer w v last⟩

theorem listing_right (h : PrimOk ctx d ops t) (hb : Blank ctx.trieClasses b) (hl : lower b = [b]) (hn : NoBlank ops d b)
    (v : Text) : (listing t lower).Seam [b] v (some b) :=
  ⟨seam_right h.trie hb hl hn.entries v, seam_right h.nocross hb hl hn.unbroken v, seam_right h.comp6 hb hl hn.computer v⟩

/-- The blank is translated by itself. -/
theorem blank_run (h : PrimOk ctx d ops t) (hb : Blank ctx.trieClasses b) (hl : lower b = [b]) (hn : NoBlank ops d b)
    (hp : (mainTable ctx d ops).NoPatterns) {f : Constraints} {made : List Made}
    (hr : (mainTable ctx d ops).Run (listing t lower) lower f [b] made) : dealtWith (itemsOf made) = [b] := by
  have hz := listing_sized (lower := lower) h
  have hs := mainTable_single ctx d ops
  have hpl := run_place hp hz hs hr
  have hne : 0 < made.length := by
    cases made with
    | nil => simp [placeOf, itemsOf, dealtWith] at hpl
    | cons => simp
  have h0 := hr.each 0 hne
  rw [next_step hp rfl] at h0
  have hpos : placeOf (made.take 0) = 0 := by simp [placeOf, itemsOf, dealtWith]
  rw [hpos, List.drop_zero] at h0
  have key : made[0].item.input = [b] := by
    rcases step_from h0 with h1 | h1 | h1 | ⟨q, hq, h1, h2⟩ | ⟨-, c, hc, h1⟩
    · have : made[0].item ∈ t.trie.find lower [b] _ := h1
      rw [find_blank h.trie hb hl hn.entries] at this; cases this
    · have : made[0].item ∈ t.nocross.find lower [b] _ := h1
      rw [find_blank h.nocross hb hl hn.unbroken] at this; cases this
    · have : made[0].item ∈ t.comp6.find lower [b] _ := h1
      rw [find_blank h.comp6 hb hl hn.computer] at this; cases this
    · rw [h1, (hs.digits q hq).1]
      injection h2 with h2
      rw [h2]
    · rw [h1, (hs.spelled c).1]
      injection hc with hc
      rw [hc]
  have hone : made.length = 1 := by
    by_cases hlt : 1 < made.length
    · have := run_inside hp hz hs hr 1 hlt
      rw [List.take_succ_eq_append_getElem hne, placeOf_append, hpos, key] at this
      simp at this
    · omega
  obtain ⟨m, rfl⟩ := List.length_eq_one_iff.1 hone
  simpa [itemsOf, dealtWith] using key

end

end Louis
