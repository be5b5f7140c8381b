import Verif.Props.Backward
import Verif.Props.MainWrong

/-!
# C40: what the capital and digit marks do to a backward translation
-/

namespace Louis

open Regexp (Fault)

/-! ## Capitals only change the case of the output -/

/-- The same constraints without any capital mark. -/
def Constraints.caseless (cons : Constraints) : Constraints := { cons with uppercase := fun _ => false, titlecase := fun _ => false }

/-- `r` is `r₀`, translated at position `p`, with its output capitalised as the marks of that position ask. -/
structure Recase (cs : Case) (cons : Constraints) (p : Nat) (r₀ r : Resolved) : Prop where
  /-- in a capitalised word everything is upper-case -/
  upper : cons.uppercase p = true → r.output = cs.upperStr r₀.output
  /-- after the sign of a single capital the first character is upper-case and the rest is kept -/
  title : cons.uppercase p = false → cons.titlecase p = true → ∀ c rest, r₀.output = c :: rest → r.output = cs.upperChar c ++ rest
  titleEmpty : cons.uppercase p = false → r₀.output = [] → r.output = []
  /-- elsewhere nothing changes -/
  same : cons.uppercase p = false → cons.titlecase p = false → r.output = r₀.output
  /-- nothing but the output changes -/
  others : r = { r₀ with output := r.output }

/-- `ts` is `ts₀` with the translation of every position (starting at `p`) recased; indications and characters without any
definition keep their output. -/
inductive Recased (cs : Case) (cons : Constraints) (ind : Nat → List Resolved) : Nat → List Resolved → List Resolved → Prop
  | nil {p} : Recased cs cons ind p [] []
  | kept {p r ts₀ ts} : r ∈ ind p ∨ r.origin = none → Recased cs cons ind (p + r.input.length) ts₀ ts →
    Recased cs cons ind p (r :: ts₀) (r :: ts)
  | recased {p r₀ r ts₀ ts} : Recase cs cons p r₀ r → Recased cs cons ind (p + r₀.input.length) ts₀ ts →
    Recased cs cons ind p (r₀ :: ts₀) (r :: ts)

theorem recase_capitalise {t : PrimaryTable} (hd : t.direction = .backward) (cs : Case) (cons : Constraints) (p : Nat)
    (r : Resolved) : Recase cs cons p r (capitalise t cs cons p r) := by
  cases hu : cons.uppercase p <;> cases ht : cons.titlecase p <;> refine ⟨?_, ?_, ?_, ?_, ?_⟩ <;>
    simp [capitalise, hd, hu, ht] <;> first | (intro c rest h; rw [h]) | (intro h; rw [h])

theorem capitalise_caseless (t : PrimaryTable) (cs : Case) (cons : Constraints) (p : Nat) (r : Resolved) :
    capitalise t cs cons.caseless p r = r := by
  simp [capitalise, Constraints.caseless]

/-- One round with and without the capital marks. -/
theorem pStep_caseless {ctx ops} {t : PrimaryTable} (h : PrimOk ctx .backward ops t) {cs : Case} {cons : Constraints}
    {ind : Nat → List Resolved} {input : Text} {s : PState} (o : List Resolved) :
    (∀ s', pStep t cs cons ind input s = .ok (.inl s') → ∃ inds r₀ r,
      (inds = if s.lastInd = some s.pos then [] else ind s.pos) ∧
      (Recase cs cons s.pos r₀ r ∨ r = r₀ ∧ r.origin = none) ∧ s'.out = s.out ++ inds ++ [r] ∧
      pStep t cs cons.caseless ind input { s with out := o } = .ok (.inl { s' with out := o ++ inds ++ [r₀] })) ∧
    (∀ out, pStep t cs cons ind input s = .ok (.inr out) → ∃ inds,
      (inds = if s.lastInd = some s.pos then [] else ind s.pos) ∧ out = s.out ++ inds ∧
      pStep t cs cons.caseless ind input { s with out := o } = .ok (.inr (o ++ inds))) := by
  have hg : gather t cs cons.caseless input { s with out := o } = gather t cs cons input s := rfl
  have hn : nocrossCandidate t cs cons.caseless { s with out := o } = nocrossCandidate t cs cons s := rfl
  have hout : ∀ q : List Resolved, (if s.lastInd = some s.pos then q else q ++ ind s.pos) =
      q ++ (if s.lastInd = some s.pos then [] else ind s.pos) := by
    intro q; split <;> simp
  refine ⟨?_, ?_⟩
  · intro s' e
    refine ⟨if s.lastInd = some s.pos then [] else ind s.pos, ?_⟩
    unfold pStep at e ⊢
    simp only [hg, hn, hout, capitalise_caseless] at e ⊢
    split at e
    · cases e
    · next cands delayed hg' =>
      split at e
      · next n hsel =>
        split at e
        · cases e
        · next hl =>
          cases e
          refine ⟨n, _, trivial, .inl (recase_capitalise h.dir cs cons s.pos n), rfl, ?_⟩
          simp only [if_neg hl]
      · next hsel =>
        split at e
        · next c hc =>
          split at e
          · cases e
          · next env henv =>
            cases e
            refine ⟨c, _, trivial, .inl (recase_capitalise h.dir cs cons s.pos c), rfl, ?_⟩
            rfl
        · next hc =>
          split at e
          · cases e
          · next c rest hr =>
            split at e
            · cases e
            · next r hpl =>
              cases e
              refine ⟨r, r, trivial, .inr ⟨rfl, ?_⟩, rfl, ?_⟩
              · unfold plainTranslation at hpl
                rw [h.charTrans] at hpl
                simp only [reduceCtorEq, if_false, assoc, List.find?_nil, Option.map_none] at hpl
                split at hpl
                · cases hpl; rfl
                · split at hpl
                  · cases hpl
                  · cases hpl; rfl
              · simp only [hpl]
  · intro out e
    refine ⟨_, rfl, ?_⟩
    unfold pStep at e ⊢
    simp only [hg, hn, hout, capitalise_caseless] at e ⊢
    split at e
    · cases e
    · next cands delayed hg' =>
      split at e
      · next n hsel => split at e <;> cases e
      · next hsel =>
        split at e
        · next c hc => split at e <;> cases e
        · next hc =>
          split at e
          · next hr =>
            cases e
            refine ⟨rfl, ?_⟩
            rfl
          · split at e <;> cases e

theorem Recased.inds {cs cons ind} : ∀ {p : Nat} (inds : List Resolved) {ts₀ ts : List Resolved}, (∀ r ∈ inds, r ∈ ind p) →
    (∀ r ∈ inds, r.input = []) → Recased cs cons ind p ts₀ ts → Recased cs cons ind p (inds ++ ts₀) (inds ++ ts)
  | _, [], _, _, _, _, h => h
  | p, r :: inds, _, _, h1, h2, h => by
    refine .kept (.inl (h1 r (by simp))) ?_
    rw [h2 r (by simp)]
    exact Recased.inds inds (fun x hx => h1 x (by simp [hx])) (fun x hx => h2 x (by simp [hx])) h

theorem loop_caseless {ctx ops} {t : PrimaryTable} (h : PrimOk ctx .backward ops t) {cs : Case} {cons : Constraints}
    {ind : Nat → List Resolved} (hind : ∀ p, ∀ r ∈ ind p, r.input = []) {input : Text} :
    ∀ {k : Nat} {s : PState} {ts : List Resolved} (o : List Resolved), PReach t cs cons ind input s →
      pLoop t cs cons ind input k s = .ok ts →
      ∃ l₀ l, ts = s.out ++ l ∧ pLoop t cs cons.caseless ind input k { s with out := o } = .ok (o ++ l₀) ∧
        Recased cs cons ind s.pos l₀ l := by
  intro k
  induction k with
  | zero => intro s ts o _ e; simp [pLoop] at e
  | succ k ih =>
    intro s ts o hr e
    have hstep := pStep_caseless h (cs := cs) (cons := cons) (ind := ind) (input := input) (s := s) o
    have hmem : ∀ r ∈ (if s.lastInd = some s.pos then [] else ind s.pos), r ∈ ind s.pos := by
      intro r hr; split at hr
      · cases hr
      · exact hr
    simp only [pLoop] at e ⊢
    split at e
    · cases e
    · next out est =>
      cases e
      obtain ⟨inds, hi, h1, h2⟩ := hstep.2 _ est
      subst hi
      refine ⟨_, _, h1, by rw [h2], ?_⟩
      have := Recased.inds (cs := cs) (cons := cons) (p := s.pos) _ hmem (fun r hr => hind s.pos r (hmem r hr)) .nil
      simpa using this
    · next s' est =>
      obtain ⟨inds, r₀, r, hi, hre, h1, h2⟩ := hstep.1 _ est
      subst hi
      obtain ⟨l₀, l, e1, e2, e3⟩ := ih (o ++ (if s.lastInd = some s.pos then [] else ind s.pos) ++ [r₀]) (.step hr est) e
      refine ⟨(if s.lastInd = some s.pos then [] else ind s.pos) ++ r₀ :: l₀,
        (if s.lastInd = some s.pos then [] else ind s.pos) ++ r :: l, by rw [e1, h1]; simp, ?_, ?_⟩
      · rw [h2]; simp only; rw [e2]; simp
      · refine Recased.inds _ hmem (fun r hr => hind s.pos r (hmem r hr)) ?_
        obtain ⟨tr, rd⟩ := pStep_round h (hr.inv h hind) est
        have htr : tr = r := by
          have := rd.out
          rw [h1] at this
          have := List.append_inj' this (by simp)
          simpa using this.2.symm
        have hlen : s'.pos = s.pos + r.input.length := by
          rw [rd.pos, ← htr, ← rd.fits.1.length, List.length_take]
          have := rd.fits.2
          omega
        rw [hlen] at e3
        rcases hre with hre | ⟨rfl, hre⟩
        · refine .recased hre ?_
          rw [show r₀.input = r.input by rw [hre.others]]; exact e3
        · exact .kept (.inr hre) e3

/-- **C40**, capitals: in backward translation the capital marks change nothing but the case of the output.  Every trace is
the trace the table gives without capital marks, with the output of every item upper-cased if the item begins in a
capitalised word, its first character upper-cased if it begins right after the sign of a single capital, and kept otherwise. -/
theorem C40_capitals_only_change_case (ctx : PrimCtx) (ops : List PrimOp) (t : PrimaryTable) (h : Built ctx .backward ops t)
    (cs : Case) (cons : Constraints) (ind : Nat → List Resolved) (hind : ∀ p, ∀ r ∈ ind p, r.input = []) (input : Text)
    (ts : List Resolved) (ht : t.Traces cs cons ind input ts) :
    ∃ ts₀, t.Traces cs cons.caseless ind input ts₀ ∧ Recased cs cons ind 0 ts₀ ts := by
  obtain ⟨k, e⟩ := ht
  obtain ⟨l₀, l, e1, e2, e3⟩ := loop_caseless h.ok hind [] .init e
  simp only [PState.init, List.nil_append] at e1 e2 e3
  subst e1
  exact ⟨l₀, ⟨k, e2⟩, e3⟩

/-! ## Digits -/

/-- **C40**, numbers: at a cell marked as a digit (outside computer braille) for which the table has a digit reading, an item
is an indication, or comes from a `nocross` rule, or covers more (or fewer) than one cell, or is a digit reading of the cell.
(Missing: "is a digit reading", see `C40_contraction_in_number_wrong`.) -/
theorem C40_digit_preferred_partial (ctx : PrimCtx) (ops : List PrimOp) (t : PrimaryTable) (h : Built ctx .backward ops t)
    (cs : Case) (cons : Constraints) (ind : Nat → List Resolved) (hind : ∀ p, ∀ r ∈ ind p, r.input = []) (input : Text)
    (ts : List Resolved) (ht : t.Traces cs cons ind input ts) (a : List Resolved) (tr : Resolved) (b : List Resolved)
    (e : ts = a ++ tr :: b) (p : Nat) (hp : p = (a.map (·.input.length)).sum) (hpref : cons.preferDigit p = true)
    (h6 : cons.useComp6 p = false) (c : Char) (hc : input[p]? = some c) (d : Resolved)
    (hover : assoc c t.digitOverrides = some d) :
    (∃ q, tr ∈ ind q) ∨ (∃ r, PrimOp.rule true r ∈ ops ∧ tr.origin = some r.origin) ∨ tr.input.length ≠ 1 ∨
      Recase cs cons p d tr := by
  obtain ⟨k, ek⟩ := ht
  obtain ⟨l, e', hl⟩ := loop_items h.ok hind .init ek
  simp only [PState.init, List.nil_append, Nat.zero_add] at e' hl
  subst e'
  rcases hl a tr b e with hx | ⟨u, u', h1, h2, h3, h4⟩
  · exact .inl hx
  rw [← hp] at h4
  subst h4
  obtain ⟨consumed, hin, hpos, -⟩ := (h1.inv h.ok hind).split
  have hhead : u.rest.head? = some c := by
    rw [hin, hpos] at hc
    rw [List.getElem?_append_right (Nat.le_refl _), Nat.sub_self] at hc
    rw [List.head?_eq_getElem?]; exact hc
  obtain ⟨rest, hrest⟩ : ∃ rest, u.rest = c :: rest := by
    cases hr : u.rest with
    | nil => rw [hr] at hhead; cases hhead
    | cons x rest => rw [hr] at hhead; cases hhead; exact ⟨rest, rfl⟩
  obtain ⟨o, org, hd, hop⟩ := h.ok.digits c d (mem_assoc hover)
  obtain ⟨cands, delayed, raw, hg, hch, hlen, hinp, hw, ho⟩ := h3.ex
  have hli : tr.input.length = tr.length := by
    rw [← h3.fits.1.length, List.length_take]
    have := h3.fits.2
    omega
  obtain ⟨all, hsel, hall⟩ := (gather_origin h.ok (h1.delayed_origin h.ok) hg).ex
  have hpd : preferDigit t cons u (all.filter (punctOk cons u.pos)) =
      ((all.filter (punctOk cons u.pos)).filter (·.length != 1)) ++ [d] := by
    unfold preferDigit
    rw [h.ok.dir, hrest]
    simp [hpref, hover]
  unfold selectCandidates at hsel
  simp only [h6, hpd, Bool.false_eq_true, if_false] at hsel
  have hdm : d ∈ cands := by
    rw [hsel]
    split
    · exact List.mem_filter.2 ⟨by simp, by simp [hd, Resolved.new]⟩
    · simp
  right
  cases hch with
  | nocross hn _ =>
    left
    have hm := List.mem_filter.1 (heaviest_mem hn)
    obtain ⟨rule, hrule, hmat, hfr⟩ := C13_found_rule_applies ctx.trieClasses cs.lower .backward (nocrossRules ops) t.nocross
      h.ok.nocross u.rest u.prev raw hm.1
    exact ⟨rule, mem_nocrossRules.1 hrule, by rw [ho, hfr.origin]⟩
  | rule hcm _ _ _ =>
    right
    have hm : raw ∈ ((all.filter (punctOk cons u.pos)).filter (·.length != 1)) ++ [d] := by
      rw [hsel] at hcm
      split at hcm
      · exact (List.mem_filter.1 hcm).1
      · exact hcm
    rcases List.mem_append.1 hm with hm | hm
    · left
      have := (List.mem_filter.1 hm).2
      rw [hli, hlen]; simpa using this
    · simp only [List.mem_singleton] at hm
      subst hm
      exact .inr (recase_capitalise h.ok.dir cs cons u.pos raw)
  | plain _ hseen _ _ =>
    exfalso
    have := h1.seen_zero h.ok hind _ (hseen d hdm)
    rw [hd] at this
    simp [Resolved.new, Resolved.subset] at this

/-! ## Examples -/

/-- Upper-casing of `a`…`z` and of nothing else. -/
def asciiUpper (c : Char) : Char := if 97 ≤ c.toNat ∧ c.toNat ≤ 122 then Char.ofNat (c.toNat - 32) else c

def asciiCase : Case := ⟨asciiLower, fun t => t.map asciiUpper, fun c => [asciiUpper c]⟩

/-- `numsign 3456`, `nonumsign 56`, digits and letters `a`-`j` on the usual cells. -/
def demoNum : NumDots := ⟨some "⠼".toList, some "⠰".toList, "⠁⠃⠉".toList, "⠁⠃⠉".toList⟩

/-- `capsletter 6`, `begcapsword 6-6`, `endcapsword 6-3`. -/
def demoCaps : CapsDots := ⟨some "⠠".toList, some "⠠⠠".toList, some "⠠⠄".toList, "⠁⠃⠉".toList⟩

/-- The signs of the examples are not empty. -/
example : demoNum.Wf ∧ demoCaps.Wf := ⟨⟨by decide, by decide⟩, ⟨by decide, by decide⟩⟩

/-- Digits up to the space; the second sign follows a letter cell and is none; the third is stopped by the letter sign. -/
example : (demoNum.compute "⠼⠁⠃ ⠁⠼⠃⠠⠼⠁⠰⠃".toList).toOption =
    some [false, true, true, false, false, false, false, false, false, true, false, false] := by decide +kernel

/-- A capitalised word with and without terminator, a single capital, and a sign at the end. -/
example : (demoCaps.compute "⠠⠠⠁⠃⠠⠄⠉⠠⠃⠠⠠⠁ ⠃⠠".toList).toOption = some
    ([false, false, true, true, false, false, false, false, false, false, false, true, false, false, false],
     [false, false, false, false, false, false, false, false, true, false, false, false, false, false, false]) := by
  decide +kernel

def letterOps : List PrimOp :=
  [.char 'a' "⠁".toList .default ⟨.other, 1⟩, .char 'b' "⠃".toList .default ⟨.other, 2⟩,
   .digitOverride '⠁' '1' ⟨.other, 3⟩, .digitOverride '⠃' '2' ⟨.other, 4⟩,
   .rule false (plainRule "" "⠼" 5), .rule false (plainRule "" "⠠⠠" 6), .rule false (plainRule "" "⠠" 7)]

/-- The constraints of a text. -/
def demoCons (input : Text) : Constraints :=
  match (Constrainers.precompute ⟨none, some demoCaps, some demoNum, none, none⟩ input []) with
  | .ok c => c
  | .error _ => noCons

def backText (ops : List PrimOp) (input : String) : Option Text :=
  match pLoop (tableOf emptyCtx .backward ops) asciiCase (demoCons input.toList) (fun _ => []) input.toList 100
    (PState.init input.toList) with
  | .ok ts => some (ts.flatMap (·.output))
  | .error _ => none

example : backText letterOps "⠼⠁⠃⠠⠁⠃⠠⠠⠁⠃" = some "12AbAB".toList := by decide +kernel

/-- The hypotheses of `C40_digit_preferred_partial` are met: the second item of the trace is the digit `1`. -/
example : Built emptyCtx .backward letterOps (tableOf emptyCtx .backward letterOps) ∧
    (demoCons "⠼⠁⠃".toList).preferDigit 1 = true ∧ (demoCons "⠼⠁⠃".toList).useComp6 1 = false ∧
    assoc '⠁' (tableOf emptyCtx .backward letterOps).digitOverrides = some (Resolved.new ['⠁'] ['1'] 1 .main (some ⟨.other, 3⟩)) :=
  ⟨tableOf_built ⟨_, rfl⟩, by decide +kernel, by decide +kernel, by decide +kernel⟩

/-- **C40 is false of the code** when a contraction of several cells begins with digit cells: with `always about 1-12` the
number 12 is read as the word "about". -/
theorem C40_contraction_in_number_wrong :
    (∀ p, p = 1 ∨ p = 2 → (demoCons "⠼⠁⠃".toList).preferDigit p = true) ∧
    backText (.rule false (plainRule "about" "⠁⠃" 8) :: letterOps) "⠼⠁⠃" = some "about".toList := by
  refine ⟨?_, by decide +kernel⟩
  rintro p (rfl | rfl) <;> decide +kernel

end Louis
