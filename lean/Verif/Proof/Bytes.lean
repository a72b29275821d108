import Verif.Model.Traverse
/-!
# Order lemmas
-/

namespace Hyperbee

theorem bcmp_self (a : Bytes) : bcmp a a = .eq := by
  induction a with
  | nil => rfl
  | cons x xs ih => simp [bcmp, ih]

theorem bcmp_lt_iff (a b : Bytes) : bcmp a b = .lt ↔ a < b := by
  induction a generalizing b with
  | nil => cases b <;> simp [bcmp]
  | cons x xs ih =>
    cases b with
    | nil => simp [bcmp]
    | cons y ys =>
      simp only [bcmp, List.cons_lt_cons_iff]
      by_cases h : x < y
      · simp [h]
      · by_cases h' : y < x
        · have : x ≠ y := by
            intro e; subst e; exact h h'
          simp [h, h', this]
        · have : x = y := by
            apply UInt8.toNat_inj.mp
            simp [UInt8.lt_iff_toNat_lt] at h h'
            omega
          subst this
          simp [ih]

theorem bcmp_gt_iff (a b : Bytes) : bcmp a b = .gt ↔ b < a := by
  induction a generalizing b with
  | nil => cases b <;> simp [bcmp]
  | cons x xs ih =>
    cases b with
    | nil => simp [bcmp]
    | cons y ys =>
      simp only [bcmp, List.cons_lt_cons_iff]
      by_cases h : x < y
      · have h' : ¬ y < x := by
          simp [UInt8.lt_iff_toNat_lt] at h ⊢; omega
        have : y ≠ x := by
          intro e; subst e; exact h' h
        simp [h, h', this]
      · by_cases h' : y < x
        · simp [h, h']
        · have : x = y := by
            apply UInt8.toNat_inj.mp
            simp [UInt8.lt_iff_toNat_lt] at h h'
            omega
          subst this
          simp [ih]

theorem bcmp_eq_iff (a b : Bytes) : bcmp a b = .eq ↔ a = b := by
  induction a generalizing b with
  | nil => cases b <;> simp [bcmp]
  | cons x xs ih =>
    cases b with
    | nil => simp [bcmp]
    | cons y ys =>
      simp only [bcmp, List.cons.injEq]
      by_cases h : x < y
      · have : x ≠ y := by
          intro e; subst e; simp at h
        simp [h, this]
      · by_cases h' : y < x
        · have : x ≠ y := by
            intro e; subst e; exact h h'
          simp [h, h', this]
        · have : x = y := by
            apply UInt8.toNat_inj.mp
            simp [UInt8.lt_iff_toNat_lt] at h h'
            omega
          subst this
          simp [ih]

theorem blt_trans {a b c : Bytes} (h₁ : a < b) (h₂ : b < c) : a < c := List.lt_trans h₁ h₂

theorem blt_irrefl (a : Bytes) : ¬ a < a := by
  intro h
  have := (bcmp_lt_iff a a).mpr h
  rw [bcmp_self] at this
  cases this

theorem blt_trichotomy (a b : Bytes) : a < b ∨ a = b ∨ b < a := by
  cases h : bcmp a b with
  | lt => exact .inl ((bcmp_lt_iff a b).mp h)
  | eq => exact .inr (.inl ((bcmp_eq_iff a b).mp h))
  | gt => exact .inr (.inr ((bcmp_gt_iff a b).mp h))

theorem LimitValue.eqBytes_iff (l : LimitValue) (b : Bytes) : l.eqBytes b = true ↔ l.cmp b = .eq := by
  cases l with
  | finite v => simp [LimitValue.eqBytes, LimitValue.cmp, bcmp_eq_iff]
  | infinite i => cases i <;> simp [LimitValue.eqBytes, LimitValue.cmp, InfiniteKeys.eqBytes,
      InfiniteKeys.cmp]

theorem LimitValue.cmp_lt_trans {l : LimitValue} {b c : Bytes} (h : l.cmp b = .lt) (hbc : b < c) :
    l.cmp c = .lt := by
  cases l with
  | finite v =>
    simp only [LimitValue.cmp, bcmp_lt_iff] at *
    exact blt_trans h hbc
  | infinite i => cases i <;> simp_all [LimitValue.cmp, InfiniteKeys.cmp]

theorem LimitValue.cmp_gt_trans {l : LimitValue} {b c : Bytes} (h : l.cmp b = .gt) (hbc : c < b) :
    l.cmp c = .gt := by
  cases l with
  | finite v =>
    simp only [LimitValue.cmp, bcmp_gt_iff] at *
    exact blt_trans hbc h
  | infinite i => cases i <;> simp_all [LimitValue.cmp, InfiniteKeys.cmp]

theorem LimitValue.cmp_eq_lt {l : LimitValue} {b c : Bytes} (h : l.cmp b = .eq) (hbc : b < c) :
    l.cmp c = .lt := by
  cases l with
  | finite v =>
    simp only [LimitValue.cmp, bcmp_eq_iff, bcmp_lt_iff] at *
    subst h; exact hbc
  | infinite i => cases i <;> simp_all [LimitValue.cmp, InfiniteKeys.cmp]

theorem LimitValue.cmp_eq_gt {l : LimitValue} {b c : Bytes} (h : l.cmp b = .eq) (hbc : c < b) :
    l.cmp c = .gt := by
  cases l with
  | finite v =>
    simp only [LimitValue.cmp, bcmp_eq_iff, bcmp_gt_iff] at *
    subst h; exact hbc
  | infinite i => cases i <;> simp_all [LimitValue.cmp, InfiniteKeys.cmp]

end Hyperbee
