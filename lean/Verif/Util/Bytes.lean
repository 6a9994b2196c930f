/-! # Byte strings ordered as by `std::string::compare` -/
namespace Verif.Util

/-- `a.compare(b) <= 0`: bytes are compared as unsigned values, a proper prefix comes first. -/
def leBytes : List UInt8 → List UInt8 → Bool
  | [], _ => true
  | _ :: _, [] => false
  | a :: as, b :: bs => a < b || (a == b && leBytes as bs)

/-- `a.compare(b) < 0`. -/
def ltBytes (a b : List UInt8) : Bool := ! leBytes b a

theorem leBytes_refl (a : List UInt8) : leBytes a a = true := by
  induction a with
  | nil => rfl
  | cons x a ih => simp [leBytes, ih]

theorem leBytes_total (a b : List UInt8) : leBytes a b = true ∨ leBytes b a = true := by
  induction a generalizing b with
  | nil => exact .inl rfl
  | cons x a ih => cases b with
    | nil => exact .inr rfl
    | cons y b =>
      simp only [leBytes, Bool.or_eq_true, decide_eq_true_eq, Bool.and_eq_true, beq_iff_eq, UInt8.lt_iff_toNat_lt,
        ← UInt8.toNat_inj]
      rcases ih b with h | h
      · rcases Nat.lt_trichotomy x.toNat y.toNat with g | g | g
        · exact .inl (.inl g)
        · exact .inl (.inr ⟨g, h⟩)
        · exact .inr (.inl g)
      · rcases Nat.lt_trichotomy x.toNat y.toNat with g | g | g
        · exact .inl (.inl g)
        · exact .inr (.inr ⟨g.symm, h⟩)
        · exact .inr (.inl g)

theorem leBytes_antisymm {a b : List UInt8} (h1 : leBytes a b = true) (h2 : leBytes b a = true) : a = b := by
  induction a generalizing b with
  | nil => cases b with
    | nil => rfl
    | cons => cases h2
  | cons x a ih => cases b with
    | nil => cases h1
    | cons y b =>
      simp only [leBytes, Bool.or_eq_true, decide_eq_true_eq, Bool.and_eq_true, beq_iff_eq, UInt8.lt_iff_toNat_lt,
        ← UInt8.toNat_inj] at h1 h2
      rcases h1 with h1 | ⟨h1, h3⟩
      · rcases h2 with h2 | ⟨h2, -⟩ <;> omega
      · rcases h2 with h2 | ⟨-, h4⟩
        · omega
        · rw [UInt8.toNat_inj.mp h1, ih h3 h4]

theorem leBytes_trans {a b c : List UInt8} (h1 : leBytes a b = true) (h2 : leBytes b c = true) : leBytes a c = true := by
  induction a generalizing b c with
  | nil => rfl
  | cons x a ih => cases b with
    | nil => cases h1
    | cons y b => cases c with
      | nil => cases h2
      | cons z c =>
        simp only [leBytes, Bool.or_eq_true, decide_eq_true_eq, Bool.and_eq_true, beq_iff_eq, UInt8.lt_iff_toNat_lt,
          ← UInt8.toNat_inj] at h1 h2 ⊢
        rcases h1 with h1 | ⟨h1, h3⟩
        · rcases h2 with h2 | ⟨h2, h4⟩
          · exact .inl (by omega)
          · exact .inl (by omega)
        · rcases h2 with h2 | ⟨h2, h4⟩
          · exact .inl (by omega)
          · exact .inr ⟨by omega, ih h3 h4⟩

theorem ltBytes_irrefl (a : List UInt8) : ltBytes a a = false := by simp [ltBytes, leBytes_refl]

theorem ltBytes_trans {a b c : List UInt8} (h1 : ltBytes a b = true) (h2 : ltBytes b c = true) : ltBytes a c = true := by
  simp only [ltBytes, Bool.not_eq_true'] at h1 h2 ⊢
  cases hc : leBytes c a with
  | false => rfl
  | true =>
    have hbc : leBytes b c = true := (leBytes_total b c).resolve_right (by simp [h2])
    have := leBytes_trans hbc hc
    rw [h1] at this; cases this

theorem ltBytes_of_le_ne {a b : List UInt8} (h1 : leBytes a b = true) (h2 : a ≠ b) : ltBytes a b = true := by
  simp only [ltBytes, Bool.not_eq_true']
  cases h : leBytes b a with
  | false => rfl
  | true => exact absurd (leBytes_antisymm h1 h) h2

theorem ltBytes_trichotomy (a b : List UInt8) : ltBytes a b = true ∨ a = b ∨ ltBytes b a = true := by
  by_cases h : a = b
  · exact .inr (.inl h)
  · rcases leBytes_total a b with h1 | h1
    · exact .inl (ltBytes_of_le_ne h1 h)
    · exact .inr (.inr (ltBytes_of_le_ne h1 (Ne.symm h)))

theorem ltBytes_ne {a b : List UInt8} (h : ltBytes a b = true) : a ≠ b := by
  rintro rfl; rw [ltBytes_irrefl] at h; cases h

theorem ltBytes_asymm {a b : List UInt8} (h : ltBytes a b = true) : ltBytes b a = false := by
  cases hb : ltBytes b a with
  | false => rfl
  | true => have := ltBytes_trans h hb; rw [ltBytes_irrefl] at this; cases this

end Verif.Util
