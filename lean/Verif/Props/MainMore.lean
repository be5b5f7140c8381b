import Verif.Props.Main

/-!
# Properties C39, C51 and the counterexamples of the main stage
-/

namespace Louis

open Regexp (Fault Compiled findAnchored)

/-! ## C51: computer braille and no-contract stretches -/

/-- **C51 (computer braille).** In a table without `nocross` rules, whatever is translated at a position in a computer-braille
stretch is translated by a `comp6` rule or as a single character by its definition (or as an undefined character).
(Missing: rules marked `nocross` apply all the same, `C51_nocross_in_computer_braille_wrong`.) -/
theorem C51_computer_braille_partial (ctx : PrimCtx) (d : Direction) (ops : List PrimOp) (t : PrimaryTable)
    (h : Built ctx d ops t) (hno : ∀ r, PrimOp.rule true r ∉ ops) (cs : Case) (cons : Constraints)
    (ind : Nat → List Resolved) (hind : ∀ p, ∀ r ∈ ind p, r.input = []) (input : Text) (ts : List Resolved)
    (ht : t.Traces cs cons ind input ts) (a : List Resolved) (tr : Resolved) (b : List Resolved) (e : ts = a ++ tr :: b)
    (h6 : cons.useComp6 (a.map (·.input.length)).sum = true) :
    (∃ p, tr ∈ ind p) ∨ (∃ r, PrimOp.comp6 r ∈ ops ∧ tr.origin = some r.origin) ∨
      ∃ c, tr.input = [c] ∧ plainTranslation t c = .ok tr := by
  rcases trace_item h hind ht e with hp | ⟨s, hr, hem, hpos, hrest, hlen⟩
  · exact .inl hp
  · right
    rw [← hpos] at h6
    cases hem with
    | nocross r hop => exact absurd hop (hno r)
    | comp6 r _ hop _ ho _ => exact .inl ⟨r, hop, ho⟩
    | rule h6' => rw [h6] at h6'; cases h6'
    | digit _ _ _ h6' => rw [h6] at h6'; cases h6'
    | plain c _ hpl hi _ => exact .inr ⟨c, hi, hpl⟩

/-- **C51 (no contraction).** In a table without `nocross` rules, at a position where contractions are suppressed (and that is
not in computer braille) nothing longer than one character is translated at once.  (Missing: as above.) -/
theorem C51_no_contraction_partial (ctx : PrimCtx) (d : Direction) (ops : List PrimOp) (t : PrimaryTable)
    (h : Built ctx d ops t) (hno : ∀ r, PrimOp.rule true r ∉ ops) (cs : Case) (cons : Constraints)
    (ind : Nat → List Resolved) (hind : ∀ p, ∀ r ∈ ind p, r.input = []) (input : Text) (ts : List Resolved)
    (ht : t.Traces cs cons ind input ts) (a : List Resolved) (tr : Resolved) (b : List Resolved) (e : ts = a ++ tr :: b)
    (h6 : cons.useComp6 (a.map (·.input.length)).sum = false)
    (hc : cons.dontContract (a.map (·.input.length)).sum = true) : tr.input.length ≤ 1 := by
  rcases trace_item h hind ht e with ⟨p, hp⟩ | ⟨s, hr, hem, hpos, hrest, hlen⟩
  · rw [hind p tr hp]; simp
  · rw [← hpos] at h6 hc
    rw [← hlen]
    cases hem with
    | nocross r hop => exact absurd hop (hno r)
    | comp6 r h6' => rw [h6] at h6'; cases h6'
    | rule _ _ _ hl => exact hl hc
    | digit _ _ _ _ _ _ _ _ _ hl => omega
    | plain c _ _ _ hl => omega

/-! ## C39: undefined characters -/

/-- The rules of the table say nothing about `c`: it has no definition, occurs (as text is compared, in lowercase) in no rule,
and there are no `match` or `context` rules. -/
structure Unknown (d : Direction) (ops : List PrimOp) (lower : Char → List Char) (c : Char) : Prop where
  noChar : ∀ dots prec o, PrimOp.char c dots prec o ∉ ops
  noRule : ∀ l, lower c = [l] → ∀ r, (r ∈ trieRules d ops ∨ r ∈ nocrossRules ops ∨ r ∈ comp6Rules ops) → l ∉ r.from d
  noMatch : ∀ pre chars post to o, PrimOp.matchRule pre chars post to o ∉ ops
  noContext : ∀ test action o, PrimOp.context test action o ∉ ops
  noDigit : ∀ ch o, PrimOp.digitOverride c ch o ∉ ops

/-- The last `undefined` rule of the table, if any. -/
def lastUndefined (ops : List PrimOp) : Option Text :=
  (ops.filterMap fun | .undefined dots => some dots | _ => none).getLast?

/-- What an unknown character becomes: the replacement of the last `undefined` rule, or else the cells of `\xH…H`, each
character of it translated by its definition, or by the built-in computer braille if it has none. -/
def unknownDots (ctx : PrimCtx) (ops : List PrimOp) (c : Char) : Text :=
  match lastUndefined ops with
  | some dots => dots
  | none => (escapeChar c).flatMap fun x => (assoc x ctx.defs).getD (fallbackCell x).toList

theorem plain_unknown {ctx d ops} {t : PrimaryTable} (h : PrimOk ctx d ops t) {lower : Char → List Char} {c : Char}
    (hu : Unknown d ops lower c) : plainTranslation t c = .ok (Resolved.new [c] (unknownDots ctx ops c) 1 .main none) := by
  unfold plainTranslation
  split
  · next r hr =>
    exfalso
    have := mem_assoc hr
    rw [h.charTrans] at this
    split at this
    · simp only [List.mem_filterMap] at this
      obtain ⟨op, hop, e⟩ := this
      cases op <;> simp at e
      obtain ⟨rfl, rfl⟩ := e
      exact hu.noChar _ _ _ hop
    · cases this
  · have hun := h.undefined
    split
    · next dots hd =>
      rw [hd] at hun
      have hl : lastUndefined ops = some dots := hun.symm
      simp only [unknownDots, hl]
    · next hd =>
      rw [hd] at hun
      have hl : lastUndefined ops = none := hun.symm
      simp only [unknownDots, hl, handleUndefined, escapeCells_ok _ _ (escape_fallback c), h.defs]

theorem spells_mem {lower : Char → List Char} {a b : Text} (h : Spells lower a b) {c : Char} (hc : c ∈ a) :
    ∃ l, lower c = [l] ∧ l ∈ b := by
  induction h with
  | nil => cases hc
  | @cons x l cs ls h1 _ ih =>
    rcases List.mem_cons.1 hc with rfl | hc
    · exact ⟨l, h1, by simp⟩
    · obtain ⟨l', h2, h3⟩ := ih hc
      exact ⟨l', h2, by simp [h3]⟩

theorem matches_unknown {ctx : PrimCtx} {d : Direction} {ops : List PrimOp} {lower : Char → List Char} {c : Char}
    (hu : Unknown d ops lower c) {r : TrieRule} (hr : r ∈ trieRules d ops ∨ r ∈ nocrossRules ops ∨ r ∈ comp6Rules ops)
    {rest : Text} {prev : Option Char} (hm : RuleMatches ctx.trieClasses lower d r rest prev) {n : Nat}
    (hn : n = (r.from d).length) : c ∉ rest.take n := by
  intro hc
  obtain ⟨consumed, tail, e, hs, -⟩ := hm
  have hl := spells_length hs
  rw [e, hn, ← hl, List.take_left] at hc
  obtain ⟨l, h1, h2⟩ := spells_mem hs hc
  exact hu.noRule l h1 r hr h2

theorem emitted_unknown {ctx d ops} {t : PrimaryTable} (h : PrimOk ctx d ops t) {cs : Case} {cons : Constraints}
    {s : PState} {c : Char} (hu : Unknown d ops cs.lower c) {tr : Resolved} (hem : Emitted ctx d ops t cs cons s tr)
    (hlen : tr.length = tr.input.length) (hc : c ∈ s.rest.take tr.length) :
    s.rest.head? = some c ∧ tr = Resolved.new [c] (unknownDots ctx ops c) 1 .main none := by
  have hhead : ∀ c', s.rest.head? = some c' → tr.length = 1 → c = c' := by
    intro c' hh h1
    rw [h1] at hc
    cases hr : s.rest with
    | nil => rw [hr] at hh; cases hh
    | cons x xs =>
      rw [hr] at hh hc
      simp only [List.head?_cons, Option.some.injEq] at hh
      simpa [hh] using hc
  cases hem with
  | nocross r hop hm _ hl _ => exact absurd hc (matches_unknown hu (.inr (.inl (mem_nocrossRules.2 hop))) hm hl)
  | comp6 r _ hop hm _ hl => exact absurd hc (matches_unknown hu (.inr (.inr (mem_comp6Rules.2 hop))) hm hl)
  | rule _ hf _ _ =>
    rcases hf with ⟨op, h1, h2, -, -⟩ | ⟨ru, h1, h2, h3, -⟩
    · cases op with
      | matchRule => exact absurd h1 (hu.noMatch _ _ _ _ _)
      | context => exact absurd h1 (hu.noContext _ _ _)
      | _ => exact h2.elim
    · exact absurd hc (matches_unknown hu (.inl h1) h2 (by rw [hlen, h3]))
  | digit c' ch o _ _ _ hh hop _ hl =>
    have := hhead c' hh hl
    subst this
    exact absurd hop (hu.noDigit _ _)
  | plain c' hh hpl _ hl =>
    have := hhead c' hh hl
    subst this
    rw [plain_unknown h hu] at hpl
    cases hpl
    exact ⟨hh, rfl⟩

theorem loop_unknown {ctx d ops} {t : PrimaryTable} (h : PrimOk ctx d ops t) {cs : Case} {cons : Constraints}
    {ind : Nat → List Resolved} (hind : ∀ p, ∀ r ∈ ind p, r.input = []) {input : Text} {c : Char}
    (hu : Unknown d ops cs.lower c) : ∀ {k s ts}, PReach t cs cons ind input s → pLoop t cs cons ind input k s = .ok ts →
      ∃ l, ts = s.out ++ l ∧
        l.count (Resolved.new [c] (unknownDots ctx ops c) 1 .main none) = s.rest.count c := by
  intro k
  induction k with
  | zero => intro s ts _ e; simp [pLoop] at e
  | succ k ih =>
    intro s ts hr e
    have inv := hr.inv h hind
    have hcount : ∀ q : List Resolved, (∀ y ∈ q, y.input = []) →
        q.count (Resolved.new [c] (unknownDots ctx ops c) 1 .main none) = 0 := by
      intro q hq
      rw [List.count_eq_zero]
      intro hm
      have := hq _ hm
      simp [Resolved.new] at this
    simp only [pLoop] at e
    split at e
    · cases e
    · next out est =>
      cases e
      have hend : s.rest = [] ∧ ts = (if s.lastInd = some s.pos then s.out else s.out ++ ind s.pos) := by
        obtain ⟨cands, delayed, hg, -, -⟩ := gather_spec h cs cons input inv
        unfold pStep at est
        simp only [hg] at est
        split at est
        · split at est <;> cases est
        · split at est
          · split at est <;> cases est
          · split at est
            · next hre => cases est; exact ⟨hre, rfl⟩
            · split at est <;> cases est
      rw [hend.1]
      have hts := hend.2
      split at hts
      · exact ⟨[], by simp [hts], by simp⟩
      · exact ⟨ind s.pos, hts, by rw [hcount _ (hind s.pos)]; rfl⟩
    · next s' est =>
      obtain ⟨tr, r⟩ := pStep_round h inv est
      obtain ⟨l, e', hl⟩ := ih (.step hr est) e
      have hinds : ∃ inds, s'.out = s.out ++ inds ++ [tr] ∧ ∀ x ∈ inds, x ∈ ind s.pos := by
        rw [r.out]
        split
        · exact ⟨[], by simp, by simp⟩
        · exact ⟨ind s.pos, rfl, fun x hx => hx⟩
      obtain ⟨inds, hout, hi⟩ := hinds
      refine ⟨inds ++ tr :: l, by rw [e', hout]; simp, ?_⟩
      have hlen : tr.length = tr.input.length := by
        rw [← r.fits.1.length, List.length_take]
        have := r.fits.2
        omega
      have hem := round_emitted h hr r
      rw [List.count_append, hcount inds (fun y hy => hind s.pos y (hi y hy)), Nat.zero_add, List.count_cons, hl, r.rest]
      have hsplit : s.rest.count c = (s.rest.take tr.length).count c + (s.rest.drop tr.length).count c := by
        rw [← List.count_append, List.take_append_drop]
      rw [hsplit, Nat.add_comm]
      congr 1
      by_cases hc : c ∈ s.rest.take tr.length
      · obtain ⟨h1, h2⟩ := emitted_unknown h hu hem hlen hc
        rw [if_pos (by simp [h2])]
        rw [h2]
        cases hrs : s.rest with
        | nil => rw [hrs] at h1; cases h1
        | cons x xs =>
          rw [hrs] at h1
          simp only [List.head?_cons, Option.some.injEq] at h1
          subst h1
          simp [Resolved.new]
      · rw [List.count_eq_zero.2 hc, if_neg]
        intro heq
        simp only [beq_iff_eq] at heq
        apply hc
        have hrep := r.fits.1
        rw [heq] at hrep ⊢
        simp only [Resolved.new, List.length_singleton] at hrep ⊢
        cases hrs : s.rest with
        | nil =>
          have := r.fits.2
          rw [hrs, heq] at this
          simp [Resolved.new] at this
        | cons x xs =>
          rw [hrs] at hrep
          simp only [List.take_succ_cons, List.take_zero, List.mem_singleton] at hrep ⊢
          rcases hrep with hrep | hrep
          · cases hrep; rfl
          · cases hem with
            | plain c' hh _ hi' _ =>
              rw [heq] at hi'
              rw [hrs] at hh
              simp [Resolved.new] at hi' hh
              rw [hh]; exact hi'
            | nocross _ _ _ ho => rw [heq] at ho; cases ho
            | comp6 _ _ _ _ ho => rw [heq] at ho; cases ho
            | rule _ hf =>
              obtain ⟨op, -, -, hn, -⟩ := hf.op
              rw [heq] at hn
              exact absurd rfl hn
            | digit _ _ _ _ _ _ _ _ ho => rw [heq] at ho; cases ho

/-- **C39 (nothing is dropped).** A character the table knows nothing about is translated, at each of its occurrences, to the
replacement of the (last) `undefined` rule, or else to the cells of its hexadecimal escape: there are exactly as many
items saying so in the trace as there are occurrences in the text. -/
theorem C39_undefined_never_dropped (ctx : PrimCtx) (d : Direction) (ops : List PrimOp) (t : PrimaryTable)
    (h : Built ctx d ops t) (cs : Case) (cons : Constraints) (ind : Nat → List Resolved)
    (hind : ∀ p, ∀ r ∈ ind p, r.input = []) (input : Text) (ts : List Resolved) (ht : t.Traces cs cons ind input ts)
    (c : Char) (hu : Unknown d ops cs.lower c) :
    ts.count (Resolved.new [c] (unknownDots ctx ops c) 1 .main none) = input.count c := by
  obtain ⟨k, e⟩ := ht
  obtain ⟨l, e', hl⟩ := loop_unknown h.ok hind hu .init e
  simp only [PState.init, List.nil_append] at e' hl
  rw [e']
  exact hl

end Louis
