import Verif.Model.Regexp

namespace Louis.Regexp

theorem bit_ne_zero (w : BitVec 64) (k : Nat) (hk : k < 64) :
    ((w &&& (1#64 <<< k)) != 0#64) = w.getLsbD k := by
  rw [Bool.eq_iff_iff]
  simp only [bne_iff_ne, ne_eq]
  constructor
  · intro h
    cases hw : w.getLsbD k with
    | true => rfl
    | false =>
      exfalso; apply h
      apply BitVec.eq_of_getLsbD_eq
      intro i hi
      simp only [BitVec.getLsbD_and, BitVec.getLsbD_shiftLeft, BitVec.getLsbD_zero]
      by_cases hik : i = k
      · subst hik; simp [hw]
      · by_cases h2 : i < k
        · simp [h2]
        · have : i - k ≠ 0 := by omega
          have h3 : (1#64).getLsbD (i - k) = false := by
            simp [BitVec.getLsbD_one, this]
          simp [h3]
  · intro h h0
    have := congrArg (fun v => v.getLsbD k) h0
    simp only [BitVec.getLsbD_and, BitVec.getLsbD_shiftLeft, h] at this
    simp [hk] at this

theorem getLsbD_or_shift (w : BitVec 64) (k j : Nat) (hk : k < 64) :
    (w ||| (1#64 <<< k)).getLsbD j = (w.getLsbD j || decide (j = k)) := by
  simp only [BitVec.getLsbD_or, BitVec.getLsbD_shiftLeft]
  by_cases h : j = k
  · subst h; simp [hk]
  · by_cases h2 : j < k
    · simp [h2, h]
    · have h3 : (1#64).getLsbD (j - k) = false := by
        have : j - k ≠ 0 := by omega
        simp [BitVec.getLsbD_one, this]
      simp [h, h3]

/-- The words cover the indices below `n`. -/
def Bitset.Covers (b : Bitset) (n : Nat) : Prop := n ≤ 64 * b.length

theorem Bitset.covers_new (n : Nat) : (Bitset.new n).Covers n := by
  simp only [Bitset.Covers, Bitset.new, List.length_replicate]; omega

theorem Bitset.covers_clear {b : Bitset} {n : Nat} (h : b.Covers n) : b.clear.Covers n := by
  simpa [Bitset.Covers, Bitset.clear] using h

theorem Bitset.covers_insert {b : Bitset} {n i : Nat} (h : b.Covers n) : (b.insert i).Covers n := by
  unfold Bitset.insert Bitset.Covers at *
  split <;> simpa using h

theorem Bitset.get_of_covers {b : Bitset} {n i : Nat} (h : b.Covers n) (hi : i < n) :
    ∃ v, b.get i = some v := by
  unfold Bitset.get Bitset.Covers at *
  have : i / 64 < b.length := by omega
  simp [List.getElem?_eq_getElem this]

theorem Bitset.get_clear (b : Bitset) (i : Nat) : b.clear.get i ≠ some true := by
  unfold Bitset.get Bitset.clear
  simp only [List.getElem?_map]
  cases b[i / 64]? <;> simp

theorem Bitset.get_new (n i : Nat) : (Bitset.new n).get i ≠ some true := by
  unfold Bitset.get Bitset.new
  simp only [List.getElem?_replicate]
  split <;> simp_all
  rename_i h; obtain ⟨_, rfl⟩ := h; simp

theorem Bitset.get_insert {b : Bitset} {n i : Nat} (h : b.Covers n) (hi : i < n) (j : Nat) :
    (b.insert i).get j = if j = i then some true else b.get j := by
  have hl : i / 64 < b.length := by unfold Bitset.Covers at h; omega
  unfold Bitset.insert Bitset.get
  simp only [List.getElem?_eq_getElem hl, List.getElem?_set]
  by_cases hw : i / 64 = j / 64
  · simp only [hw, if_true]
    have hl' : j / 64 < b.length := by omega
    simp only [hl', if_true, List.getElem?_eq_getElem hl']
    rw [bit_ne_zero _ _ (Nat.mod_lt _ (by omega)), bit_ne_zero _ _ (Nat.mod_lt _ (by omega)),
      getLsbD_or_shift _ _ _ (Nat.mod_lt _ (by omega))]
    by_cases hji : j = i
    · subst hji; simp
    · have : ¬ (j % 64 = i % 64) := by omega
      simp [hji, this]
  · simp only [hw, if_false]
    have : j ≠ i := by intro h; subst h; exact hw rfl
    simp [this]

end Louis.Regexp
