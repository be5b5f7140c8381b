import Verif.Model.Multipass
import Verif.Lemmas.Find

namespace Louis

open Regexp (Fault Compiled Found findAnchored findAnchored_spec)

/-! ## Heaviest candidate -/

theorem heaviest_none {l : List Resolved} : heaviest l = none ↔ l = [] := by
  cases l with
  | nil => simp [heaviest]
  | cons t ts =>
    simp only [heaviest, reduceCtorEq, iff_false]
    split
    · simp
    · split <;> simp

theorem heaviest_some : ∀ {l : List Resolved} {t : Resolved}, heaviest l = some t →
    ∃ before after, l = before ++ t :: after ∧ (∀ u ∈ before, u.weight ≤ t.weight) ∧ ∀ u ∈ after, u.weight < t.weight := by
  intro l
  induction l with
  | nil => simp [heaviest]
  | cons x xs ih =>
    intro t h
    simp only [heaviest] at h
    split at h
    · next hn =>
      cases h
      rw [heaviest_none] at hn
      subst hn
      exact ⟨[], [], rfl, by simp, by simp⟩
    · next u hu =>
      obtain ⟨b, a, e, hb, ha⟩ := ih hu
      split at h
      · next hw =>
        cases h
        refine ⟨x :: b, a, by simp [e], ?_, ha⟩
        intro v hv
        rcases List.mem_cons.1 hv with rfl | hv
        · exact hw
        · exact hb v hv
      · next hw =>
        cases h
        refine ⟨[], xs, rfl, by simp, ?_⟩
        intro v hv
        rw [e] at hv
        rcases List.mem_append.1 hv with hv | hv
        · have := hb v hv; omega
        · rcases List.mem_cons.1 hv with rfl | hv
          · omega
          · have := ha v hv; omega

theorem heaviest_mem {l : List Resolved} {t : Resolved} (h : heaviest l = some t) : t ∈ l := by
  obtain ⟨b, a, e, -, -⟩ := heaviest_some h
  simp [e]

theorem heaviest_max {l : List Resolved} {t : Resolved} (h : heaviest l = some t) : ∀ u ∈ l, u.weight ≤ t.weight := by
  obtain ⟨b, a, e, hb, ha⟩ := heaviest_some h
  intro u hu
  rw [e] at hu
  rcases List.mem_append.1 hu with hu | hu
  · exact hb u hu
  · rcases List.mem_cons.1 hu with rfl | hu
    · omega
    · exact Nat.le_of_lt (ha u hu)

/-! ## Candidates lie in the remaining text -/

/-- The replaced text of the candidate lies in `rest`, `offset` characters ahead, and is related to its reported
input by `R`. -/
def Fits (R : Text → Text → Prop) (rest : Text) (t : Resolved) : Prop :=
  ∃ pre mid post, rest = pre ++ mid ++ post ∧ pre.length = t.offset ∧ mid.length = t.length ∧ R mid t.input

theorem Fits.bound {R rest t} (h : Fits R rest t) : t.offset + t.length ≤ rest.length := by
  obtain ⟨pre, mid, post, rfl, h1, h2, -⟩ := h
  simp; omega

theorem Fits.now {R rest t} (h : Fits R rest t) (h0 : t.offset = 0) :
    R (rest.take t.length) t.input ∧ t.length ≤ rest.length := by
  have hb := h.bound
  obtain ⟨pre, mid, post, rfl, h1, h2, h3⟩ := h
  rw [h0] at h1
  have : pre = [] := List.length_eq_zero_iff.1 h1
  subst this
  refine ⟨?_, by omega⟩
  simpa [← h2] using h3

theorem Fits.drop {R rest t} (h : Fits R rest t) (n : Nat) (hn : n ≤ t.offset) :
    Fits R (rest.drop n) { t with offset := t.offset - n } := by
  obtain ⟨pre, mid, post, rfl, h1, h2, h3⟩ := h
  refine ⟨pre.drop n, mid, post, ?_, by simp; omega, h2, h3⟩
  rw [List.append_assoc, List.drop_append_of_le_length (by omega), List.append_assoc]

theorem fits_updateOffsets {R rest} {l : List Resolved} (h : ∀ t ∈ l, Fits R rest t) (n : Nat) :
    ∀ t ∈ updateOffsets l n, Fits R (rest.drop n) t := by
  intro t ht
  simp only [updateOffsets, List.mem_map, List.mem_filter, decide_eq_true_eq] at ht
  obtain ⟨u, ⟨hu, hn⟩, rfl⟩ := ht
  exact (h u hu).drop n hn

theorem mem_updateOffsets {l : List Resolved} {n : Nat} {t : Resolved} (h : t ∈ updateOffsets l n) :
    ∃ u ∈ l, t = { u with offset := u.offset - n } := by
  simp only [updateOffsets, List.mem_map, List.mem_filter] at h
  obtain ⟨u, ⟨hu, -⟩, rfl⟩ := h
  exact ⟨u, hu, rfl⟩

/-! ## Pattern sets -/

/-- Every pattern of the set is a compiled regular expression with an admissible payload. -/
def PatternsOk (P : Translation → Prop) (ps : List (Compiled Translation)) : Prop :=
  ∀ p ∈ ps, ∃ r payload, p = Regexp.compile r payload ∧ P payload

theorem patternsFind_spec {P : Translation → Prop} {lower : Char → List Char} {input : Text} {env : Env} {atStart : Bool} :
    ∀ {ps : List (Compiled Translation)}, PatternsOk P ps →
    ∃ l, patternsFind ps lower input env atStart = .ok l ∧
      ∀ t ∈ l, ∃ r payload before capture after consumed tail, Regexp.compile r payload ∈ ps ∧ P payload ∧
        (∃ s', Regexp.MatchesWith Regexp.codeRange lower env atStart r (Regexp.St.init input) s' ∧ s'.rest = tail ∧
          s'.cap = (Regexp.utf8Len before, Regexp.utf8Len (before ++ capture))) ∧
        input = consumed ++ tail ∧ consumed = before ++ capture ++ after ∧
        t = payload.resolve capture consumed.length before.length := by
  intro ps
  induction ps with
  | nil => intro _; exact ⟨[], rfl, by simp⟩
  | cons p ps ih =>
    intro h
    obtain ⟨l, e, hl⟩ := ih (fun q hq => h q (List.mem_cons_of_mem _ hq))
    obtain ⟨r, payload, rfl, hP⟩ := h p (List.mem_cons_self ..)
    obtain ⟨res, e1, -, e2⟩ := findAnchored_spec r payload lower input env atStart
    have hl' : ∀ t ∈ l, ∃ r' payload' before capture after consumed tail,
        Regexp.compile r' payload' ∈ Regexp.compile r payload :: ps ∧ P payload' ∧
        (∃ s', Regexp.MatchesWith Regexp.codeRange lower env atStart r' (Regexp.St.init input) s' ∧ s'.rest = tail ∧
          s'.cap = (Regexp.utf8Len before, Regexp.utf8Len (before ++ capture))) ∧
        input = consumed ++ tail ∧ consumed = before ++ capture ++ after ∧
        t = payload'.resolve capture consumed.length before.length := by
      intro t ht
      obtain ⟨r', p', b, c, a, co, tl, hm, rest⟩ := hl t ht
      exact ⟨r', p', b, c, a, co, tl, List.mem_cons_of_mem _ hm, rest⟩
    simp only [patternsFind, e1, e]
    cases res with
    | none => exact ⟨l, rfl, hl'⟩
    | some f =>
      refine ⟨_, rfl, ?_⟩
      intro t ht
      rcases List.mem_cons.1 ht with rfl | ht
      · obtain ⟨s', before, after, consumed, hM, h1, h2, h3, h4, h5, h6⟩ := e2 f rfl
        refine ⟨r, payload, before, f.capture, after, consumed, s'.rest, List.mem_cons_self .., hP, ⟨s', hM, rfl, h5⟩,
          h1, h3, ?_⟩
        rw [h6, h2, h4]
      · exact hl' t ht

/-- Payload of a multipass pattern: unresolved, with only assignments as effects. -/
def SetOnly (es : List Effect) : Prop := ∀ e ∈ es, ∃ v, e.kind = .set v

def MpPayload : Translation → Prop
  | .unresolved u => SetOnly u.effects
  | .resolved _ => False

theorem setOnly_effectsOf (as : List ActionInstr) : SetOnly (effectsOf as) := by
  intro e he
  simp only [effectsOf, List.mem_filterMap] at he
  obtain ⟨a, -, ha⟩ := he
  cases a <;> simp at ha
  subst ha
  exact ⟨_, rfl⟩

theorem applyAll_ok : ∀ (es : List Effect) (env : Env), SetOnly es → ∃ env', env.applyAll es = .ok env' := by
  intro es
  induction es with
  | nil => intro env _; exact ⟨env, rfl⟩
  | cons e es ih =>
    intro env h
    obtain ⟨v, hv⟩ := h e (List.mem_cons_self ..)
    obtain ⟨env', h'⟩ := ih (env.put e.slot v) (fun x hx => h x (List.mem_cons_of_mem _ hx))
    exact ⟨env', by simp [Env.applyAll, Env.apply, hv, h']⟩

theorem compilePattern_ok {ctx swaps stage prec origin test action p}
    (h : compilePattern ctx swaps stage prec origin test action = .ok p) :
    ∃ r payload, p = Regexp.compile r payload ∧ MpPayload payload := by
  simp only [compilePattern] at h
  split at h
  · cases h
  · split at h
    · cases h
    · cases h
      exact ⟨_, _, rfl, setOnly_effectsOf _⟩

theorem compilePass_ok {ctx swaps direction stage} : ∀ {rules ps},
    compilePass ctx swaps direction stage rules = .ok ps → PatternsOk MpPayload ps := by
  intro rules
  induction rules with
  | nil => intro ps h; cases h; intro p hp; cases hp
  | cons r rs ih =>
    intro ps h
    simp only [compilePass] at h
    split at h
    · exact ih h
    · split at h
      · cases h
      · next p hp =>
        split at h
        · cases h
        · next qs hqs =>
          cases h
          intro q hq
          rcases List.mem_cons.1 hq with rfl | hq
          · exact compilePattern_ok hp
          · exact ih hqs q hq

/-! ## The multipass loop -/

/-- The zero-length translations a pattern set can produce on a text of at most `n` characters. -/
def zeroSubsets (ps : List (Compiled Translation)) (n : Nat) : List Subset :=
  ps.flatMap fun p => p.translations.flatMap fun
    | .unresolved u => (List.range (n + 1)).map fun w => ⟨[], u.output.flatMap (·.resolve []), 0, w⟩
    | .resolved t => (List.range (n + 1)).map fun w => ⟨t.input, t.output, t.length, w⟩

theorem translations_compile {τ : Type} (r : Regexp.Regexp) (payload : τ) :
    (Regexp.compile r payload).translations = [payload] := rfl

theorem nodup_subset_length {α : Type} [DecidableEq α] : ∀ {l u : List α}, l.Nodup → (∀ x ∈ l, x ∈ u) → l.length ≤ u.length := by
  intro l
  induction l with
  | nil => intro u _ _; simp
  | cons x xs ih =>
    intro u hn hs
    obtain ⟨hx, hn⟩ := List.nodup_cons.1 hn
    have := ih (u := u.erase x) hn (by
      intro y hy
      exact (List.mem_erase_of_ne (by rintro rfl; exact hx hy)).2 (hs y (List.mem_cons_of_mem _ hy)))
    have hm := hs x (List.mem_cons_self ..)
    have := List.length_erase_of_mem hm
    have := List.length_pos_of_mem hm
    simp; omega

/-- What every candidate or delayed translation of the loop satisfies. -/
structure MpCand (ps : List (Compiled Translation)) (n : Nat) (rest : Text) (t : Resolved) : Prop where
  fits : Fits Eq rest t
  eff : SetOnly t.effects
  zero : t.length = 0 → t.subset ∈ zeroSubsets ps n

theorem MpCand.drop {ps n rest t} (h : MpCand ps n rest t) (m : Nat) (hm : m ≤ t.offset) :
    MpCand ps n (rest.drop m) { t with offset := t.offset - m } :=
  ⟨h.fits.drop m hm, h.eff, h.zero⟩

theorem mpCand_updateOffsets {ps n rest} {l : List Resolved} (h : ∀ t ∈ l, MpCand ps n rest t) (m : Nat) :
    ∀ t ∈ updateOffsets l m, MpCand ps n (rest.drop m) t := by
  intro t ht
  simp only [updateOffsets, List.mem_map, List.mem_filter, decide_eq_true_eq] at ht
  obtain ⟨u, ⟨hu, hn⟩, rfl⟩ := ht
  exact (h u hu).drop m hn

theorem patternsFind_cand {ps : List (Compiled Translation)} (h : PatternsOk MpPayload ps) (lower : Char → List Char)
    (rest : Text) (env : Env) (atStart : Bool) (n : Nat) (hn : rest.length ≤ n) :
    ∃ l, patternsFind ps lower rest env atStart = .ok l ∧ ∀ t ∈ l, MpCand ps n rest t := by
  obtain ⟨l, e, hl⟩ := patternsFind_spec (lower := lower) (input := rest) (env := env) (atStart := atStart) h
  refine ⟨l, e, ?_⟩
  intro t ht
  obtain ⟨r, payload, b, c, a, co, tl, hm, hP, -, h1, h2, rfl⟩ := hl t ht
  cases payload with
  | resolved _ => exact hP.elim
  | unresolved u =>
    refine ⟨⟨b, c, a ++ tl, by rw [h1, h2]; simp, rfl, rfl, rfl⟩, hP, ?_⟩
    intro h0
    have hc : c = [] := List.length_eq_zero_iff.1 h0
    subst hc
    simp only [zeroSubsets, List.mem_flatMap]
    refine ⟨_, hm, .unresolved u, by simp [translations_compile], ?_⟩
    simp only [List.mem_map, List.mem_range]
    refine ⟨co.length, ?_, rfl⟩
    have : co.length ≤ rest.length := by rw [h1]; simp
    omega

/-- Loop invariant. -/
structure MpInv (ps : List (Compiled Translation)) (input : Text) (s : MpState) : Prop where
  split : s.out.flatMap (·.input) ++ s.rest = input
  cand : ∀ t ∈ s.delayed, MpCand ps input.length s.rest t
  seenSub : ∀ x ∈ s.seen, x ∈ zeroSubsets ps input.length
  seenNodup : s.seen.Nodup

theorem MpInv.init (ps : List (Compiled Translation)) (input : Text) : MpInv ps input (MpState.init input) :=
  ⟨rfl, by simp [MpState.init], by simp [MpState.init], by simp [MpState.init]⟩

def mpMeasure (u : Nat) (s : MpState) : Nat := s.rest.length * (u + 1) + (u - s.seen.length)

/-- The facts about one iteration that the loop proofs need. -/
theorem mpStep_spec {t : MultipassTable} (hps : PatternsOk MpPayload t.patterns) (lower : Char → List Char) (input : Text)
    {s : MpState} (inv : MpInv t.patterns input s) :
    (mpStep t lower input s = .ok none ∧ s.rest = []) ∨
    ∃ s', mpStep t lower input s = .ok (some s') ∧ MpInv t.patterns input s' ∧
      mpMeasure (zeroSubsets t.patterns input.length).length s' < mpMeasure (zeroSubsets t.patterns input.length).length s := by
  have hrest : s.rest.length ≤ input.length := by rw [← inv.split]; simp
  obtain ⟨found, e, hf⟩ := patternsFind_cand hps lower s.rest s.env (Regexp.utf8Len s.rest == Regexp.utf8Len input)
    input.length hrest
  have hdel : ∀ u ∈ s.delayed ++ found.filter (·.offset != 0), MpCand t.patterns input.length s.rest u := by
    intro u hu
    rcases List.mem_append.1 hu with hu | hu
    · exact inv.cand u hu
    · exact hf u (List.mem_filter.1 hu).1
  have hcand : ∀ u ∈ found.filter (·.offset == 0) ++ (s.delayed ++ found.filter (·.offset != 0)).filter (·.offset == 0),
      u.offset = 0 ∧ MpCand t.patterns input.length s.rest u := by
    intro u hu
    rcases List.mem_append.1 hu with hu | hu
    · obtain ⟨h1, h2⟩ := List.mem_filter.1 hu
      exact ⟨by simpa using h2, hf u h1⟩
    · obtain ⟨h1, h2⟩ := List.mem_filter.1 hu
      exact ⟨by simpa using h2, hdel u h1⟩
  have hdel' : ∀ u ∈ (s.delayed ++ found.filter (·.offset != 0)).filter (·.offset != 0),
      MpCand t.patterns input.length s.rest u := fun u hu => hdel u (List.mem_filter.1 hu).1
  unfold mpStep
  simp only [e]
  split
  · next c hc =>
    have hm := List.mem_filter.1 (heaviest_mem hc)
    obtain ⟨h0, hcd⟩ := hcand c hm.1
    obtain ⟨env', henv⟩ := applyAll_ok c.effects s.env hcd.eff
    obtain ⟨hin, hle⟩ := hcd.fits.now h0
    simp only [henv]
    right
    refine ⟨_, rfl, ?_, ?_⟩
    · constructor
      · show (s.out ++ [c]).flatMap (·.input) ++ (if c.length = 0 then s.rest else s.rest.drop c.length) = input
        have : (if c.length = 0 then s.rest else s.rest.drop c.length) = s.rest.drop c.length := by
          split
          · next h => simp [h]
          · rfl
        rw [this, List.flatMap_append, List.append_assoc]
        simp only [List.flatMap_cons, List.flatMap_nil, List.append_nil]
        rw [← hin, List.take_append_drop]
        exact inv.split
      · show ∀ u ∈ updateOffsets _ c.length, MpCand _ _ (if c.length = 0 then s.rest else s.rest.drop c.length) u
        have : (if c.length = 0 then s.rest else s.rest.drop c.length) = s.rest.drop c.length := by
          split
          · next h => simp [h]
          · rfl
        rw [this]
        exact mpCand_updateOffsets hdel' c.length
      · show ∀ x ∈ (if c.length = 0 then c.subset :: s.seen else []), x ∈ zeroSubsets t.patterns input.length
        split
        · next h =>
          intro x hx
          rcases List.mem_cons.1 hx with rfl | hx
          · exact hcd.zero h
          · exact inv.seenSub x hx
        · simp
      · show (if c.length = 0 then c.subset :: s.seen else []).Nodup
        split
        · refine List.nodup_cons.2 ⟨?_, inv.seenNodup⟩
          simpa using hm.2
        · simp
    · simp only [mpMeasure]
      split
      · next h =>
        have hnd : (c.subset :: s.seen).Nodup := List.nodup_cons.2 ⟨by simpa using hm.2, inv.seenNodup⟩
        have := nodup_subset_length (u := zeroSubsets t.patterns input.length) hnd (by
          intro x hx
          rcases List.mem_cons.1 hx with rfl | hx
          · exact hcd.zero h
          · exact inv.seenSub x hx)
        simp only [List.length_cons] at this ⊢
        omega
      · next h =>
        generalize (zeroSubsets t.patterns input.length).length = U
        rw [List.length_drop]
        have : (s.rest.length - c.length + 1) * (U + 1) ≤ s.rest.length * (U + 1) :=
          Nat.mul_le_mul_right _ (by omega)
        rw [Nat.add_mul] at this
        simp only [List.length_nil]
        omega
  · next hc =>
    cases hr : s.rest with
    | nil => left; simp
    | cons x rest =>
      right
      refine ⟨_, rfl, ?_, ?_⟩
      · constructor
        · show (s.out ++ [Resolved.new [x] [x] 1 t.stage none]).flatMap (·.input) ++ rest = input
          rw [← inv.split, hr]
          simp [Resolved.new]
        · show ∀ u ∈ updateOffsets _ 1, MpCand _ _ rest u
          have := mpCand_updateOffsets hdel' 1
          rw [hr] at this
          simpa using this
        · exact inv.seenSub
        · exact inv.seenNodup
      · simp only [mpMeasure, hr, List.length_cons, Nat.add_mul]
        omega

/-- From any state satisfying the invariant, the loop finishes and its result covers the input. -/
theorem mpLoop_total {t : MultipassTable} (hps : PatternsOk MpPayload t.patterns) (lower : Char → List Char) (input : Text) :
    ∀ (k : Nat) (s : MpState), MpInv t.patterns input s →
      mpMeasure (zeroSubsets t.patterns input.length).length s < k →
      ∃ ts, mpLoop t lower input k s = .ok ts ∧ ts.flatMap (·.input) = input := by
  intro k
  induction k with
  | zero => intro s _ h; omega
  | succ k ih =>
    intro s inv h
    rcases mpStep_spec hps lower input inv with ⟨e, hr⟩ | ⟨s', e, inv', hlt⟩
    · refine ⟨s.out, by simp [mpLoop, e], ?_⟩
      have := inv.split
      rw [hr] at this
      simpa using this
    · obtain ⟨ts, e', h'⟩ := ih s' inv' (by omega)
      exact ⟨ts, by simp [mpLoop, e, e'], h'⟩

/-- More fuel does not change a result. -/
theorem mpLoop_mono {t : MultipassTable} {lower : Char → List Char} {input : Text} : ∀ {k : Nat} {s : MpState} {ts},
    mpLoop t lower input k s = .ok ts → ∀ k', k ≤ k' → mpLoop t lower input k' s = .ok ts := by
  intro k
  induction k with
  | zero => intro s ts h; simp [mpLoop] at h
  | succ k ih =>
    intro s ts h k' hk
    cases k' with
    | zero => omega
    | succ k' =>
      simp only [mpLoop] at h ⊢
      split at h
      · cases h
      · exact h
      · exact ih h k' (by omega)

end Louis
