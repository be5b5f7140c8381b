import Verif.Props.Cost
import Verif.Props.Primary
import Verif.Props.Multipass

/-! How often the loops of the stages run (C09, C78). -/

namespace Louis

open Regexp (Compiled)

theorem zeroSubsets_length (n : Nat) : ∀ (ps : List (Compiled Translation)),
    (∀ p ∈ ps, p.translations.length = 1) → (zeroSubsets ps n).length = ps.length * (n + 1) := by
  intro ps
  induction ps with
  | nil => intro _; simp [zeroSubsets]
  | cons p ps ih =>
    intro h
    have := ih fun q hq => h q (List.mem_cons_of_mem _ hq)
    have h1 := h p (List.mem_cons_self ..)
    match hp : p.translations, h1 with
    | [t], _ =>
      simp only [zeroSubsets, List.flatMap_cons, List.length_append, List.flatMap_nil, List.append_nil,
        List.length_cons, Nat.add_mul] at this ⊢
      rw [this, hp]
      cases t <;> simp <;> omega

/-- **C09.** The loop of the main stage takes no more rounds than an explicit function of the table and the text: with
`n` characters and `m` `match` and `context` lines, (n + 1) · (m · (n + 1) + 1). -/
theorem C09_round_bound (ctx : PrimCtx) (d : Direction) (ops : List PrimOp) (t : PrimaryTable)
    (h : Built ctx d ops t) (cs : Case) (cons : Constraints) (ind : Nat → List Resolved)
    (hind : ∀ p, ∀ r ∈ ind p, r.input = []) (input : Text) :
    ∃ ts, pLoop t cs cons ind input
      ((input.length + 1) * ((t.matchPats.length + t.contextPats.length) * (input.length + 1) + 1) + 1)
      (PState.init input) = .ok ts := by
  have hok := h.ok
  have hm : (zeroSubsets t.matchPats input.length).length = t.matchPats.length * (input.length + 1) := by
    apply zeroSubsets_length
    intro p hp
    obtain ⟨pre, chars, post, to, origin, e⟩ := hok.matchPats p hp
    obtain ⟨r, -, rfl⟩ := Option.map_eq_some_iff.1 e
    rfl
  have hx : (zeroSubsets t.contextPats input.length).length = t.contextPats.length * (input.length + 1) := by
    apply zeroSubsets_length
    intro p hp
    obtain ⟨r, payload, rfl, _⟩ := hok.contextPats p hp
    rfl
  obtain ⟨ts, e, -⟩ := pLoop_total hok cs cons ind hind input _ _ (PInv.init t cs.lower input) (Nat.lt_succ_self _)
  refine ⟨ts, pLoop_mono e _ ?_⟩
  simp only [pMeasure, primZero, List.length_append, hm, hx, PState.init, List.length_nil, Nat.add_mul]
  omega

end Louis
