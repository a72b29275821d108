import Verif.Proof.Refine
/-!
# Properties of keys, limits and traversal configurations
-/

namespace Hyperbee

/-! ## C29 -/

/-- The order of byte strings, said independently: `a` is a proper prefix of `b`, or at the first
place where they differ `a` has the smaller byte. -/
def ByteLt (a b : Bytes) : Prop :=
  (∃ t, t ≠ [] ∧ b = a ++ t) ∨ ∃ p x y s t, a = p ++ x :: s ∧ b = p ++ y :: t ∧ x.toNat < y.toNat

theorem byteLt_cons {x : UInt8} {a b : Bytes} : ByteLt (x :: a) (x :: b) ↔ ByteLt a b := by
  constructor
  · rintro (⟨t, ht, e⟩ | ⟨p, y, z, s, t, e1, e2, hlt⟩)
    · exact .inl ⟨t, ht, by simpa using e⟩
    · cases p with
      | nil =>
        simp only [List.nil_append, List.cons.injEq] at e1 e2
        rw [← e1.1, ← e2.1] at hlt
        omega
      | cons w p =>
        simp only [List.cons_append, List.cons.injEq] at e1 e2
        exact .inr ⟨p, y, z, s, t, e1.2, e2.2, hlt⟩
  · rintro (⟨t, ht, e⟩ | ⟨p, y, z, s, t, e1, e2, hlt⟩)
    · exact .inl ⟨t, ht, by rw [e]; rfl⟩
    · exact .inr ⟨x :: p, y, z, s, t, by rw [e1]; rfl, by rw [e2]; rfl, hlt⟩

/-- The `<` used in all other statements is that order. -/
theorem byteLt_iff (a b : Bytes) : a < b ↔ ByteLt a b := by
  induction a generalizing b with
  | nil =>
    cases b with
    | nil => simp [ByteLt]
    | cons y b =>
      simp only [List.nil_lt_cons, true_iff]
      exact .inl ⟨y :: b, by simp, rfl⟩
  | cons x a ih =>
    cases b with
    | nil => simp [ByteLt]
    | cons y b =>
      rw [List.cons_lt_cons_iff]
      by_cases h : x = y
      · subst h
        rw [byteLt_cons, ← ih]
        simp
      · constructor
        · rintro (h1 | ⟨h1, _⟩)
          · exact .inr ⟨[], x, y, a, b, rfl, rfl, UInt8.lt_iff_toNat_lt.mp h1⟩
          · exact absurd h1 h
        · rintro (⟨t, ht, e⟩ | ⟨p, y', z, s, t, e1, e2, hlt⟩)
          · simp only [List.cons_append, List.cons.injEq] at e
            exact absurd e.1.symm h
          · cases p with
            | nil =>
              simp only [List.nil_append, List.cons.injEq] at e1 e2
              left
              rw [e1.1, e2.1]
              exact UInt8.lt_iff_toNat_lt.mpr hlt
            | cons w p =>
              simp only [List.cons_append, List.cons.injEq] at e1 e2
              exact absurd (e1.1.trans e2.1.symm) h

/-- The comparison the code makes between a limit and a key: the order of byte strings, with the
infinities outside of it, and equality exactly where the comparison says so. -/
theorem limit_order (l : LimitValue) (k : Bytes) :
    (l.cmp k = .lt ↔ l = .infinite .negative ∨ ∃ b, l = .finite b ∧ ByteLt b k) ∧
    (l.cmp k = .gt ↔ l = .infinite .positive ∨ ∃ b, l = .finite b ∧ ByteLt k b) ∧
    (l.cmp k = .eq ↔ l = .finite k) ∧ (l.eqBytes k = true ↔ l = .finite k) := by
  cases l with
  | finite v =>
    simp only [LimitValue.cmp, LimitValue.eqBytes, bcmp_lt_iff, bcmp_gt_iff, bcmp_eq_iff, byteLt_iff]
    simp
  | infinite i => cases i <;> simp [LimitValue.cmp, LimitValue.eqBytes, InfiniteKeys.cmp, InfiniteKeys.eqBytes]

/-- The same comparison written the other way round. -/
theorem limit_order_flip (i : InfiniteKeys) (k : Bytes) :
    bytesCmpInf k i = (i.cmp k).swap ∧ bytesEqInf k i = i.eqBytes k ∧
    ∀ b, bcmp k b = (bcmp b k).swap := by
  refine ⟨by cases i <;> rfl, rfl, fun b => ?_⟩
  cases h : bcmp b k with
  | lt => rw [bcmp_lt_iff] at h; exact (bcmp_gt_iff k b).mpr h
  | eq => rw [bcmp_eq_iff] at h; subst h; exact bcmp_self _
  | gt => rw [bcmp_gt_iff] at h; exact (bcmp_lt_iff k b).mpr h

/-- The order is a strict total order, and a proper prefix is smaller. -/
theorem byte_order :
    (∀ a, ¬ ByteLt a a) ∧ (∀ a b c, ByteLt a b → ByteLt b c → ByteLt a c) ∧
    (∀ a b, ByteLt a b ∨ a = b ∨ ByteLt b a) ∧ ∀ a t, t ≠ [] → ByteLt a (a ++ t) := by
  refine ⟨fun a => ?_, fun a b c => ?_, fun a b => ?_, fun a t ht => .inl ⟨t, ht, rfl⟩⟩
  · rw [← byteLt_iff]; exact blt_irrefl a
  · rw [← byteLt_iff, ← byteLt_iff, ← byteLt_iff]; exact blt_trans
  · rw [← byteLt_iff, ← byteLt_iff]; exact blt_trichotomy a b

example : (LimitValue.finite [1, 255]).cmp [2] = .lt ∧ (LimitValue.finite [1, 2]).cmp [1] = .gt ∧
    (LimitValue.finite []).cmp [0] = .lt ∧ (LimitValue.infinite .positive).cmp [255, 255] = .gt := by decide

/-! ## C27 -/

/-- For an accepted configuration the code's bounds check is membership in the interval. -/
theorem bounds_check {b : TraverseConfigBuilder} {conf : TraverseConfig} (h : b.build = .ok conf) (k : Bytes) :
    conf.inBounds k = true ↔ InRange conf k :=
  build_sound h k

/-- It is not so for configurations that did not come from the builder (the fields are public): a
key equal to an inclusive minimum passes whatever the maximum is. -/
theorem bounds_check_unvalidated : ∃ conf k, conf.inBounds k = true ∧ ¬ InRange conf k := by
  refine ⟨⟨.finite [5], true, .finite [3], true, false⟩, [5], rfl, ?_⟩
  rintro ⟨_, h⟩
  simp [BelowMax] at h
  exact absurd h (by decide)

example : ∃ conf, ({ minValue := some (.finite [3]), minInclusive := some false, maxValue := some (.finite [5]) } :
    TraverseConfigBuilder).build = .ok conf ∧ conf.inBounds [3] = false ∧ conf.inBounds [4] = true ∧
    conf.inBounds [5] = true ∧ conf.inBounds [5, 0] = false := ⟨_, rfl, by decide⟩

/-! ## C26 -/

/-- The key range a builder describes. -/
def Describes (b : TraverseConfigBuilder) (k : Bytes) : Prop :=
  AboveMin (b.minValue.getD (.infinite .negative)) (b.minInclusive.getD true) k ∧
  BelowMax (b.maxValue.getD (.infinite .positive)) (b.maxInclusive.getD true) k

/-- False of the code: naming an infinite bound that is the default is rejected, though every key
satisfies it. -/
theorem builder_rejects_sensible :
    (∀ v, ({ minValue := some (.finite v), maxValue := some (.infinite .positive) } : TraverseConfigBuilder).build
      = .error .traverseConfigBuilder ∧
      Describes { minValue := some (.finite v), maxValue := some (.infinite .positive) } v) ∧
    (∀ v, ({ minValue := some (.infinite .negative), maxValue := some (.finite v) } : TraverseConfigBuilder).build
      = .error .traverseConfigBuilder ∧
      Describes { minValue := some (.infinite .negative), maxValue := some (.finite v) } v) ∧
    ({ minValue := some (.infinite .negative), maxValue := some (.infinite .positive) } : TraverseConfigBuilder).build
      = .error .traverseConfigBuilder ∧
    ∀ k, Describes { minValue := some (.infinite .negative), maxValue := some (.infinite .positive) } k :=
  ⟨fun _ => ⟨rfl, .inr ⟨rfl, rfl⟩, trivial⟩, fun _ => ⟨rfl, trivial, .inr ⟨rfl, rfl⟩⟩, rfl, fun _ => ⟨trivial, trivial⟩⟩

/-- There is no key between a key and itself followed by a zero byte. -/
theorem succ_le {a b : Bytes} (h : a < b) : a ++ [0] < b ∨ a ++ [0] = b := by
  induction a generalizing b with
  | nil =>
    cases b with
    | nil => exact absurd h (by decide)
    | cons y b =>
      by_cases hy : y = 0
      · subst hy
        cases b with
        | nil => exact .inr rfl
        | cons z b => left; rw [List.nil_append, List.cons_lt_cons_iff]; exact .inr ⟨rfl, by simp⟩
      · left
        rw [List.nil_append, List.cons_lt_cons_iff]
        left
        rw [UInt8.lt_iff_toNat_lt]
        have : y.toNat ≠ 0 := fun e => hy (UInt8.toNat_inj.mp e)
        show 0 < y.toNat
        omega
  | cons x a ih =>
    cases b with
    | nil => exact absurd h (by simp)
    | cons y b =>
      rw [List.cons_lt_cons_iff] at h
      rcases h with h | ⟨rfl, h⟩
      · left; rw [List.cons_append, List.cons_lt_cons_iff]; exact .inl h
      · rcases ih h with h | h
        · left; rw [List.cons_append, List.cons_lt_cons_iff]; exact .inr ⟨rfl, h⟩
        · right; rw [List.cons_append, h]

theorem lt_succ (a : Bytes) : a < a ++ [0] := (byteLt_iff _ _).mpr (.inl ⟨[0], by simp, rfl⟩)

/-- False of the code: a range no key can satisfy is accepted — a minimum of positive infinity or a
maximum of negative infinity given alone, everything below the empty key, and the open interval
between a key and its immediate successor. -/
theorem builder_accepts_empty :
    (∃ conf, ({ minValue := some (.infinite .positive) } : TraverseConfigBuilder).build = .ok conf) ∧
    (∀ k, ¬ Describes { minValue := some (.infinite .positive) } k) ∧
    (∃ conf, ({ maxValue := some (.infinite .negative) } : TraverseConfigBuilder).build = .ok conf) ∧
    (∀ k, ¬ Describes { maxValue := some (.infinite .negative) } k) ∧
    (∃ conf, ({ maxValue := some (.finite []), maxInclusive := some false } : TraverseConfigBuilder).build = .ok conf) ∧
    (∀ k, ¬ Describes { maxValue := some (.finite []), maxInclusive := some false } k) ∧
    (∀ v, ∃ conf, (⟨some (.finite v), some false, some (.finite (v ++ [0])), some false, none⟩ :
      TraverseConfigBuilder).build = .ok conf) ∧
    ∀ v k, ¬ Describes ⟨some (.finite v), some false, some (.finite (v ++ [0])), some false, none⟩ k := by
  refine ⟨⟨_, rfl⟩, fun _ h => h.1, ⟨_, rfl⟩, fun _ h => h.2, ⟨_, rfl⟩, ?_, ?_, ?_⟩
  · rintro k ⟨_, h⟩
    simp [BelowMax] at h
  · intro v
    have n1 : ¬ bcmp (v ++ [0]) v = .lt := by
      rw [bcmp_lt_iff]; exact fun h => blt_irrefl _ (blt_trans h (lt_succ v))
    have n2 : v ≠ v ++ [0] := by
      intro h; have := congrArg List.length h; simp at this
    simp only [TraverseConfigBuilder.build, validateBuilder, n1, n2, if_false, if_true]
    exact ⟨_, rfl⟩
  · rintro v k ⟨h1, h2⟩
    simp only [Option.getD_some, AboveMin, BelowMax, Bool.false_eq_true, false_and, or_false] at h1 h2
    rcases succ_le h1 with h | h
    · exact blt_irrefl _ (blt_trans h h2)
    · rw [h] at h2; exact blt_irrefl _ h2

/-- What holds: with two finite bounds the builder succeeds exactly when some key satisfies both, or
the range is the open interval between a key and its immediate successor.

Missing from the full statement: that interval, and bounds that are infinite or left out
(`builder_rejects_sensible`, `builder_accepts_empty`). -/
theorem builder_partial (b : TraverseConfigBuilder) {lo hi : Bytes} (h1 : b.minValue = some (.finite lo))
    (h2 : b.maxValue = some (.finite hi)) :
    (∃ conf, b.build = .ok conf) ↔
      (∃ k, Describes b k) ∨ (b.minInclusive = some false ∧ b.maxInclusive = some false ∧ hi = lo ++ [0]) := by
  obtain ⟨mn, mi, mx, xi, rv⟩ := b
  simp only at h1 h2
  subst h1 h2
  simp only [Describes, Option.getD_some, AboveMin, BelowMax, TraverseConfigBuilder.build, validateBuilder]
  rcases blt_trichotomy lo hi with hlt | heq | hgt
  · have n1 : ¬ bcmp hi lo = .lt := by
      rw [bcmp_lt_iff]; exact fun h => blt_irrefl _ (blt_trans h hlt)
    have n2 : lo ≠ hi := by rintro rfl; exact blt_irrefl _ hlt
    simp only [n1, n2, if_false, if_true]
    constructor
    · intro _
      by_cases e1 : mi.getD true = true
      · exact .inl ⟨lo, .inr ⟨e1, rfl⟩, .inl hlt⟩
      · by_cases e2 : xi.getD true = true
        · exact .inl ⟨hi, .inl hlt, .inr ⟨e2, rfl⟩⟩
        · rcases succ_le hlt with h | h
          · exact .inl ⟨lo ++ [0], .inl (lt_succ lo), .inl h⟩
          · refine .inr ⟨?_, ?_, h.symm⟩
            · cases mi with
              | none => exact absurd rfl e1
              | some b => cases b <;> simp_all
            · cases xi with
              | none => exact absurd rfl e2
              | some b => cases b <;> simp_all
    · intro _; exact ⟨_, rfl⟩
  · subst heq
    have n1 : ¬ bcmp lo lo = .lt := by rw [bcmp_self]; simp
    simp only [n1, if_false, if_true]
    have hself : ¬ lo = lo ++ [0] := by
      intro h; have := congrArg List.length h; simp at this
    have irr := blt_irrefl lo
    have asym : ∀ k, lo < k → ¬ k < lo := fun k h1 h2 => irr (blt_trans h1 h2)
    have key : ∀ i j : Bool, (∃ k, (lo < k ∨ i = true ∧ k = lo) ∧ (k < lo ∨ j = true ∧ k = lo)) ↔ i = true ∧ j = true := by
      intro i j
      constructor
      · rintro ⟨k, h1 | ⟨h1, rfl⟩, h2 | ⟨h2, h3⟩⟩
        · exact absurd h2 (asym k h1)
        · subst h3; exact absurd h1 irr
        · exact absurd h2 irr
        · exact ⟨h1, h2⟩
      · rintro ⟨h1, h2⟩; exact ⟨lo, .inr ⟨h1, rfl⟩, .inr ⟨h2, rfl⟩⟩
    rw [key]
    rcases mi with _ | mi <;> rcases xi with _ | xi <;> (try cases mi) <;> (try cases xi) <;> simp [hself]
  · have n1 : bcmp hi lo = .lt := (bcmp_lt_iff _ _).mpr hgt
    simp only [n1, if_true]
    constructor
    · rintro ⟨conf, h⟩; cases h
    · rintro (⟨k, h1, h2⟩ | ⟨_, _, h⟩)
      · exfalso
        rcases h1 with h1 | ⟨_, rfl⟩
        · rcases h2 with h2 | ⟨_, rfl⟩
          · exact blt_irrefl _ (blt_trans (blt_trans h2 hgt) h1)
          · exact blt_irrefl _ (blt_trans h1 hgt)
        · rcases h2 with h2 | ⟨_, rfl⟩
          · exact blt_irrefl _ (blt_trans h2 hgt)
          · exact blt_irrefl _ hgt
      · subst h
        exact absurd (blt_trans hgt (lt_succ lo)) (blt_irrefl _)

/-- What holds: a builder with a bound left out always succeeds. -/
theorem builder_one_sided (b : TraverseConfigBuilder) (h : b.minValue = none ∨ b.maxValue = none) :
    ∃ conf, b.build = .ok conf := by
  obtain ⟨mn, mi, mx, xi, rv⟩ := b
  rcases h with h | h
  · simp only at h; subst h; exact ⟨_, rfl⟩
  · simp only at h; subst h
    cases mn <;> exact ⟨_, rfl⟩

example : (∃ conf, ({ minValue := some (.finite [3]), maxValue := some (.finite [3]) } : TraverseConfigBuilder).build = .ok conf) ∧
    ({ minValue := some (.finite [3]), maxValue := some (.finite [3]), maxInclusive := some false } :
      TraverseConfigBuilder).build = .error .traverseConfigBuilder ∧
    ({ minValue := some (.finite [3]), maxValue := some (.finite [2, 9]) } :
      TraverseConfigBuilder).build = .error .traverseConfigBuilder := ⟨⟨_, rfl⟩, rfl, rfl⟩

theorem builder_finite (mi xi rv : Option Bool) (lo hi : Bytes) :
    (∃ conf, (⟨some (.finite lo), mi, some (.finite hi), xi, rv⟩ : TraverseConfigBuilder).build = .ok conf) ↔
      lo < hi ∨ lo = hi ∧ mi ≠ some false ∧ xi ≠ some false := by
  simp only [TraverseConfigBuilder.build, validateBuilder]
  rcases blt_trichotomy lo hi with hlt | heq | hgt
  · have n1 : ¬ bcmp hi lo = .lt := by
      rw [bcmp_lt_iff]; exact fun h => blt_irrefl _ (blt_trans h hlt)
    have n2 : lo ≠ hi := by rintro rfl; exact blt_irrefl _ hlt
    simp only [n1, n2, if_false, if_true]
    exact ⟨fun _ => .inl hlt, fun _ => ⟨_, rfl⟩⟩
  · subst heq
    have n1 : ¬ bcmp lo lo = .lt := by rw [bcmp_self]; simp
    have irr := blt_irrefl lo
    simp only [n1, if_false, if_true, irr, false_or, true_and]
    rcases mi with _ | mi <;> rcases xi with _ | xi <;> (try cases mi) <;> (try cases xi) <;> simp
  · have n1 : bcmp hi lo = .lt := (bcmp_lt_iff _ _).mpr hgt
    have n2 : ¬ lo < hi := fun h => blt_irrefl _ (blt_trans h hgt)
    have n3 : lo ≠ hi := by rintro rfl; exact blt_irrefl _ hgt
    simp only [n1, if_true, n2, n3, false_and, or_false, iff_false]
    rintro ⟨conf, h⟩; cases h

/-- Exactly when the builder succeeds: a bound is left out; or both are finite and the lower is below
the upper, or equal to it with neither declared exclusive. -/
theorem builder_accepts (b : TraverseConfigBuilder) :
    (∃ conf, b.build = .ok conf) ↔ b.minValue = none ∨ b.maxValue = none ∨
      ∃ lo hi, b.minValue = some (.finite lo) ∧ b.maxValue = some (.finite hi) ∧
        (ByteLt lo hi ∨ lo = hi ∧ b.minInclusive ≠ some false ∧ b.maxInclusive ≠ some false) := by
  obtain ⟨mn, mi, mx, xi, rv⟩ := b
  simp only [← byteLt_iff]
  cases mn with
  | none => exact ⟨fun _ => .inl rfl, fun _ => ⟨_, rfl⟩⟩
  | some mn =>
    cases mx with
    | none => exact ⟨fun _ => .inr (.inl rfl), fun _ => ⟨_, rfl⟩⟩
    | some mx =>
      cases mn with
      | finite lo =>
        cases mx with
        | finite hi =>
          rw [builder_finite]
          constructor
          · intro h; exact .inr (.inr ⟨lo, hi, rfl, rfl, h⟩)
          · rintro (h | h | ⟨_, _, h1, h2, h⟩)
            · cases h
            · cases h
            · cases h1; cases h2; exact h
        | infinite j =>
          constructor
          · rintro ⟨conf, h⟩; cases j <;> cases h
          · rintro (h | h | ⟨_, _, _, h, _⟩) <;> cases h
      | infinite i =>
        constructor
        · rintro ⟨conf, h⟩
          cases mx with
          | finite hi => cases i <;> cases h
          | infinite j => cases i <;> cases j <;> cases h
        · rintro (h | h | ⟨_, _, h, _⟩) <;> cases h

/-- Every range the builder accepts though no key is in it. -/
theorem builder_accepts_empty_iff (b : TraverseConfigBuilder) :
    ((∃ conf, b.build = .ok conf) ∧ ¬ ∃ k, Describes b k) ↔
      b.minValue = some (.infinite .positive) ∧ b.maxValue = none ∨
      b.minValue = none ∧ b.maxValue = some (.infinite .negative) ∨
      b.minValue = none ∧ b.maxValue = some (.finite []) ∧ b.maxInclusive = some false ∨
      ∃ v, b.minValue = some (.finite v) ∧ b.minInclusive = some false ∧
        b.maxValue = some (.finite (v ++ [0])) ∧ b.maxInclusive = some false := by
  obtain ⟨mn, mi, mx, xi, rv⟩ := b
  cases mn with
  | none =>
    have hok : ∃ conf, (⟨none, mi, mx, xi, rv⟩ : TraverseConfigBuilder).build = .ok conf := builder_one_sided _ (.inl rfl)
    simp only [hok, true_and, reduceCtorEq, false_and, false_or, or_false, exists_const]
    cases mx with
    | none => simp [Describes, AboveMin, BelowMax]
    | some mx =>
      cases mx with
      | infinite j => cases j <;> simp [Describes, AboveMin, BelowMax]
      | finite hi =>
        simp only [Describes, Option.getD_none, Option.getD_some, AboveMin, BelowMax, true_and,
          Option.some.injEq, reduceCtorEq, false_or, LimitValue.finite.injEq]
        constructor
        · intro h
          have hnil : hi = [] := by
            cases hi with
            | nil => rfl
            | cons x hi => exact absurd ⟨[], .inl (by simp)⟩ h
          refine ⟨hnil, ?_⟩
          cases xi with
          | none => exact absurd ⟨hi, .inr ⟨rfl, rfl⟩⟩ h
          | some y =>
            cases y with
            | true => exact absurd ⟨hi, .inr ⟨rfl, rfl⟩⟩ h
            | false => rfl
        · rintro ⟨rfl, rfl⟩ ⟨k, h | ⟨h, _⟩⟩
          · simp at h
          · simp at h
  | some mn =>
    cases mx with
    | none =>
      have hok : ∃ conf, (⟨some mn, mi, none, xi, rv⟩ : TraverseConfigBuilder).build = .ok conf :=
        builder_one_sided _ (.inr rfl)
      simp only [hok, true_and, reduceCtorEq, false_and, and_false, or_false, exists_const, and_true]
      cases mn with
      | infinite i => cases i <;> simp [Describes, AboveMin, BelowMax]
      | finite lo =>
        simp only [Option.some.injEq, reduceCtorEq, iff_false, Classical.not_not]
        exact ⟨lo ++ [0], .inl (lt_succ lo), trivial⟩
    | some mx =>
      simp only [reduceCtorEq, false_and, and_false, false_or]
      constructor
      · rintro ⟨hok, hk⟩
        rcases (builder_accepts _).mp hok with h | h | ⟨lo, hi, h1, h2, _⟩
        · cases h
        · cases h
        · simp only at h1 h2
          rw [h1, h2] at hok hk ⊢
          rcases (builder_partial _ rfl rfl).mp hok with h | ⟨h3, h4, h5⟩
          · exact absurd h hk
          · exact ⟨lo, rfl, h3, by rw [h5], h4⟩
      · rintro ⟨v, h1, h3, h2, h4⟩
        rw [h1, h2, h3, h4]
        refine ⟨(builder_partial _ rfl rfl).mpr (.inr ⟨rfl, rfl, rfl⟩), ?_⟩
        rintro ⟨k, hk⟩
        exact builder_accepts_empty.2.2.2.2.2.2.2 v k hk

/-- Every range the builder refuses though there are keys in it: both bounds are given, and one of
them is the infinite value it would have had by default. -/
theorem builder_rejects_sensible_iff (b : TraverseConfigBuilder) :
    ((¬ ∃ conf, b.build = .ok conf) ∧ ∃ k, Describes b k) ↔
      b.minValue = some (.infinite .negative) ∧ b.maxValue = some (.infinite .positive) ∨
      (∃ lo, b.minValue = some (.finite lo)) ∧ b.maxValue = some (.infinite .positive) ∨
      b.minValue = some (.infinite .negative) ∧
        ∃ hi, b.maxValue = some (.finite hi) ∧ ¬ (hi = [] ∧ b.maxInclusive = some false) := by
  obtain ⟨mn, mi, mx, xi, rv⟩ := b
  cases mn with
  | none =>
    have hok := builder_one_sided (⟨none, mi, mx, xi, rv⟩ : TraverseConfigBuilder) (.inl rfl)
    simp [hok]
  | some mn =>
    cases mx with
    | none =>
      have hok := builder_one_sided (⟨some mn, mi, none, xi, rv⟩ : TraverseConfigBuilder) (.inr rfl)
      simp [hok]
    | some mx =>
      cases mn with
      | finite lo =>
        cases mx with
        | finite hi =>
          simp only [reduceCtorEq, Option.some.injEq, false_and, and_false, or_false, iff_false]
          rintro ⟨hno, hk⟩
          exact hno ((builder_partial _ rfl rfl).mpr (.inl hk))
        | infinite j =>
          cases j with
          | negative => simp [Describes, BelowMax]
          | positive =>
            simp only [reduceCtorEq, Option.some.injEq, false_and, or_false, false_or, and_true,
              LimitValue.finite.injEq, exists_eq', iff_true]
            refine ⟨?_, lo ++ [0], .inl (lt_succ lo), trivial⟩
            rintro ⟨conf, h⟩; cases h
      | infinite i =>
        cases i with
        | positive => simp [Describes, AboveMin]
        | negative =>
          have hno : ¬ ∃ conf, (⟨some (.infinite .negative), mi, some mx, xi, rv⟩ : TraverseConfigBuilder).build = .ok conf := by
            rintro ⟨conf, h⟩
            cases mx with
            | finite hi => cases h
            | infinite j => cases j <;> cases h
          simp only [hno, not_false_eq_true, true_and, Option.some.injEq, reduceCtorEq, exists_const, false_and, false_or]
          cases mx with
          | infinite j => cases j <;> simp [Describes, AboveMin, BelowMax]
          | finite hi =>
            simp only [Describes, Option.getD_some, AboveMin, BelowMax, true_and, reduceCtorEq, false_or,
              LimitValue.finite.injEq, exists_eq_left']
            constructor
            · rintro ⟨k, h⟩ ⟨rfl, rfl⟩
              rcases h with h | ⟨h, _⟩ <;> simp at h
            · intro h
              cases hi with
              | cons x hi => exact ⟨[], .inl (by simp)⟩
              | nil =>
                refine ⟨[], .inr ⟨?_, rfl⟩⟩
                rcases xi with _ | xi
                · rfl
                · cases xi
                  · exact absurd ⟨rfl, rfl⟩ h
                  · rfl

/-- The three kinds of wrong refusal, and the four of wrong acceptance, do occur; and both theorems
say that nothing else goes wrong, as for this range. -/
example : let b : TraverseConfigBuilder := ⟨some (.finite [3]), some false, some (.finite [3, 0]), none, none⟩
    (∃ conf, b.build = .ok conf) ∧ ∃ k, Describes b k :=
  ⟨⟨_, rfl⟩, [3, 0], .inl (by decide), .inr ⟨rfl, rfl⟩⟩

/-! ## C45 -/

/-- False of the code: the limit for 10 is below the limit for 9. -/
theorem numeric_limits_unordered : ∃ a b, LimitValue.ofNat 9 = .finite a ∧ LimitValue.ofNat 10 = .finite b ∧
    ByteLt b a :=
  ⟨[57], [49, 48], rfl, rfl, (byteLt_iff _ _).mp (by decide)⟩

/-- The number a string of decimal digits denotes. -/
def decimalValue (bs : Bytes) : Nat := bs.foldl (fun n d => 10 * n + (d.toNat - 48)) 0

def IsDigit (d : UInt8) : Prop := 48 ≤ d.toNat ∧ d.toNat < 58

theorem digit_byte (n : Nat) : (UInt8.ofNat (48 + n % 10)).toNat = 48 + n % 10 := by
  rw [UInt8.toNat_ofNat']; omega

theorem decimalF_spec (fuel : Nat) : ∀ n acc, n < fuel → ∃ ds, decimalF fuel n acc = ds ++ acc ∧ decimalValue ds = n ∧
    ∀ d ∈ ds, IsDigit d := by
  induction fuel with
  | zero => intro n acc h; omega
  | succ fuel ih =>
    intro n acc h
    simp only [decimalF]
    by_cases hn : n < 10
    · rw [if_pos hn]
      refine ⟨[UInt8.ofNat (48 + n % 10)], rfl, ?_, ?_⟩
      · simp only [decimalValue, List.foldl_cons, List.foldl_nil, digit_byte]; omega
      · intro d hd
        rw [List.mem_singleton] at hd; subst hd
        unfold IsDigit; rw [digit_byte]; omega
    · rw [if_neg hn]
      obtain ⟨ds, h1, h2, h3⟩ := ih (n / 10) (UInt8.ofNat (48 + n % 10) :: acc) (by omega)
      refine ⟨ds ++ [UInt8.ofNat (48 + n % 10)], by rw [h1]; simp, ?_, ?_⟩
      · unfold decimalValue at h2 ⊢
        rw [List.foldl_append, h2]
        simp only [List.foldl_cons, List.foldl_nil, digit_byte]; omega
      · intro d hd
        rcases List.mem_append.mp hd with hd | hd
        · exact h3 d hd
        · rw [List.mem_singleton] at hd; subst hd
          unfold IsDigit; rw [digit_byte]; omega

theorem foldl_digits (ds : Bytes) (m : Nat) :
    ds.foldl (fun n d => 10 * n + (d.toNat - 48)) m = 10 ^ ds.length * m + decimalValue ds := by
  induction ds generalizing m with
  | nil => simp [decimalValue]
  | cons d ds ih =>
    unfold decimalValue
    simp only [List.foldl_cons]
    rw [ih, ih (10 * 0 + (d.toNat - 48)), List.length_cons, Nat.pow_succ]
    simp only [Nat.mul_add, Nat.mul_zero, Nat.zero_add, Nat.mul_assoc]
    omega

theorem decimalValue_lt (ds : Bytes) (h : ∀ d ∈ ds, IsDigit d) : decimalValue ds < 10 ^ ds.length := by
  induction ds with
  | nil => simp [decimalValue]
  | cons d ds ih =>
    have h1 := h d (by simp)
    have h2 := ih fun d hd => h d (List.mem_cons_of_mem _ hd)
    unfold decimalValue
    simp only [List.foldl_cons]
    rw [foldl_digits, List.length_cons, Nat.pow_succ]
    unfold IsDigit at h1
    generalize 10 ^ ds.length = P at h2 ⊢
    have : 10 * 0 + (d.toNat - 48) ≤ 9 := by omega
    generalize 10 * 0 + (d.toNat - 48) = x at this ⊢
    have : P * x ≤ P * 9 := Nat.mul_le_mul_left _ this
    omega

theorem decimalValue_lt_iff (as : Bytes) : ∀ (bs : Bytes), as.length = bs.length → (∀ d ∈ as, IsDigit d) →
    (∀ d ∈ bs, IsDigit d) → (as < bs ↔ decimalValue as < decimalValue bs) := by
  induction as with
  | nil =>
    intro bs hl _ _
    obtain rfl : bs = [] := by simpa using hl.symm
    simp
  | cons a as ih =>
    intro bs hl ha hb
    cases bs with
    | nil => simp at hl
    | cons b bs =>
      have hl : as.length = bs.length := by simpa using hl
      have ia := decimalValue_lt as fun d hd => ha d (List.mem_cons_of_mem _ hd)
      have ib := decimalValue_lt bs fun d hd => hb d (List.mem_cons_of_mem _ hd)
      have da := ha a (by simp)
      have db := hb b (by simp)
      have ih := ih bs hl (fun d hd => ha d (List.mem_cons_of_mem _ hd)) fun d hd => hb d (List.mem_cons_of_mem _ hd)
      have va : decimalValue (a :: as) = 10 ^ as.length * (a.toNat - 48) + decimalValue as := by
        show (as.foldl _ _) = _
        rw [foldl_digits]; simp
      have vb : decimalValue (b :: bs) = 10 ^ bs.length * (b.toNat - 48) + decimalValue bs := by
        show (bs.foldl _ _) = _
        rw [foldl_digits]; simp
      rw [va, vb, List.cons_lt_cons_iff, UInt8.lt_iff_toNat_lt, hl, ih]
      rw [hl] at ia
      unfold IsDigit at da db
      generalize 10 ^ bs.length = P at ia ib ⊢
      rcases Nat.lt_trichotomy a.toNat b.toNat with h | h | h
      · have : P * (a.toNat - 48 + 1) ≤ P * (b.toNat - 48) := Nat.mul_le_mul_left _ (by omega)
        rw [Nat.mul_add] at this
        constructor
        · intro _; omega
        · intro _; exact .inl h
      · have hab : a = b := UInt8.toNat_inj.mp h
        subst hab
        simp
      · have : P * (b.toNat - 48 + 1) ≤ P * (a.toNat - 48) := Nat.mul_le_mul_left _ (by omega)
        rw [Nat.mul_add] at this
        constructor
        · rintro (h' | ⟨rfl, _⟩) <;> omega
        · intro _; omega

/-- What holds: a numeric limit is the decimal digits of the number, so that different numbers give
different limits, and numbers written with equally many digits are ordered as their limits are.

Missing from the full statement: numbers with different numbers of digits
(`numeric_limits_unordered`). -/
theorem numeric_limits_partial (m n : Nat) : ∃ a b, LimitValue.ofNat m = .finite a ∧ LimitValue.ofNat n = .finite b ∧
    decimalValue a = m ∧ decimalValue b = n ∧ (∀ d ∈ a, IsDigit d) ∧ (a = b ↔ m = n) ∧
    (a.length = b.length → (ByteLt a b ↔ m < n)) := by
  obtain ⟨a, ha, va, da⟩ := decimalF_spec (m + 1) m [] (by omega)
  obtain ⟨b, hb, vb, db⟩ := decimalF_spec (n + 1) n [] (by omega)
  rw [List.append_nil] at ha hb
  refine ⟨a, b, by rw [LimitValue.ofNat, ha], by rw [LimitValue.ofNat, hb], va, vb, da, ?_, ?_⟩
  · constructor
    · rintro rfl; rw [← va, ← vb]
    · rintro rfl; rw [← ha, ← hb]
  · intro hl
    rw [← byteLt_iff, decimalValue_lt_iff a b hl da db, va, vb]

theorem append_lt_append_iff : ∀ {as bs : Bytes} (xs ys : Bytes), as.length = bs.length →
    (as ++ xs < bs ++ ys ↔ as < bs ∨ as = bs ∧ xs < ys)
  | [], [], xs, ys, _ => by simp
  | a :: as, b :: bs, xs, ys, h => by
    have ih := append_lt_append_iff (as := as) (bs := bs) xs ys (by simpa using h)
    rw [List.cons_append, List.cons_append, List.cons_lt_cons_iff, ih, List.cons_lt_cons_iff]
    simp only [List.cons.injEq]
    constructor
    · rintro (h | ⟨h, h' | ⟨h', h2⟩⟩)
      · exact .inl (.inl h)
      · exact .inl (.inr ⟨h, h'⟩)
      · exact .inr ⟨⟨h, h'⟩, h2⟩
    · rintro ((h | ⟨h, h'⟩) | ⟨⟨h, h'⟩, h2⟩)
      · exact .inl h
      · exact .inr ⟨h, .inl h'⟩
      · exact .inr ⟨h, .inr ⟨h', h2⟩⟩

theorem decimalValue_append (as bs : Bytes) :
    decimalValue (as ++ bs) = 10 ^ bs.length * decimalValue as + decimalValue bs := by
  show (as ++ bs).foldl _ 0 = _
  rw [List.foldl_append, foldl_digits]
  rfl

theorem decimalValue_inj {as bs : Bytes} (hl : as.length = bs.length) (ha : ∀ d ∈ as, IsDigit d)
    (hb : ∀ d ∈ bs, IsDigit d) (h : decimalValue as = decimalValue bs) : as = bs := by
  rcases blt_trichotomy as bs with h1 | h1 | h1
  · have := (decimalValue_lt_iff as bs hl ha hb).mp h1; omega
  · exact h1
  · have := (decimalValue_lt_iff bs as hl.symm hb ha).mp h1; omega

/-- No digit is written before the first that counts. -/
theorem decimalF_long (fuel : Nat) : ∀ n acc, n < fuel → ∃ ds, decimalF fuel n acc = ds ++ acc ∧ ds ≠ [] ∧
    (1 < ds.length → 10 ^ (ds.length - 1) ≤ n) := by
  induction fuel with
  | zero => intro n acc h; omega
  | succ fuel ih =>
    intro n acc h
    simp only [decimalF]
    by_cases hn : n < 10
    · rw [if_pos hn]
      exact ⟨[_], rfl, by simp, by simp⟩
    · rw [if_neg hn]
      obtain ⟨ds, h1, h2, h3⟩ := ih (n / 10) (UInt8.ofNat (48 + n % 10) :: acc) (by omega)
      refine ⟨ds ++ [UInt8.ofNat (48 + n % 10)], by rw [h1]; simp, by simp, fun _ => ?_⟩
      have hp : 0 < ds.length := List.length_pos_iff.mpr h2
      rw [List.length_append, List.length_singleton, Nat.add_sub_cancel]
      by_cases h4 : 1 < ds.length
      · have h5 := h3 h4
        obtain ⟨l, hl⟩ : ∃ l, ds.length = l + 1 := ⟨ds.length - 1, by omega⟩
        rw [hl, Nat.add_sub_cancel] at h5
        rw [hl, Nat.pow_succ]
        generalize 10 ^ l = P at h5 ⊢
        omega
      · have : ds.length = 1 := by omega
        rw [this]; omega

/-- How the limits for any two numbers compare, exactly.  A numeric limit is the number's decimal
digits, as few as will do.  Where both have equally many digits the order is the numbers'; otherwise
the number with fewer digits is first brought to the length of the other by zeros after it, and wins
a tie. -/
theorem numeric_limits_order (m n : Nat) : ∃ a b, LimitValue.ofNat m = .finite a ∧ LimitValue.ofNat n = .finite b ∧
    (a ≠ [] ∧ m < 10 ^ a.length ∧ (1 < a.length → 10 ^ (a.length - 1) ≤ m)) ∧
    (b ≠ [] ∧ n < 10 ^ b.length ∧ (1 < b.length → 10 ^ (b.length - 1) ≤ n)) ∧
    (ByteLt a b ↔ if a.length < b.length then m * 10 ^ (b.length - a.length) ≤ n
      else m < n * 10 ^ (a.length - b.length)) := by
  obtain ⟨a, ha, va, da⟩ := decimalF_spec (m + 1) m [] (by omega)
  obtain ⟨b, hb, vb, db⟩ := decimalF_spec (n + 1) n [] (by omega)
  obtain ⟨a', ha', na, la⟩ := decimalF_long (m + 1) m [] (by omega)
  obtain ⟨b', hb', nb, lb⟩ := decimalF_long (n + 1) n [] (by omega)
  rw [List.append_nil] at ha hb ha' hb'
  obtain rfl : a' = a := by rw [← ha, ha']
  obtain rfl : b' = b := by rw [← hb, hb']
  refine ⟨a', b', by rw [LimitValue.ofNat, ha], by rw [LimitValue.ofNat, hb],
    ⟨na, va ▸ decimalValue_lt a' da, la⟩, ⟨nb, vb ▸ decimalValue_lt b' db, lb⟩, ?_⟩
  rw [← byteLt_iff]
  by_cases hl : a'.length < b'.length
  · rw [if_pos hl]
    have e := List.take_append_drop a'.length b'
    have hlen : a'.length = (b'.take a'.length).length := by rw [List.length_take]; omega
    have hd1 : ∀ d ∈ b'.take a'.length, IsDigit d := fun d hd => db d (List.mem_of_mem_take hd)
    have hd2 : ∀ d ∈ b'.drop a'.length, IsDigit d := fun d hd => db d (List.mem_of_mem_drop hd)
    have hne : [] < b'.drop a'.length := by
      cases h : b'.drop a'.length with
      | nil => have := congrArg List.length h; simp at this; omega
      | cons => simp
    have h1 := append_lt_append_iff [] (b'.drop a'.length) hlen
    have h2 := decimalValue_append (b'.take a'.length) (b'.drop a'.length)
    have h3 := decimalValue_lt _ hd2
    have h4 := decimalValue_lt_iff a' _ hlen da hd1
    have h5 := fun h => decimalValue_inj hlen da hd1 h
    have h6 : a' = b'.take a'.length → m = decimalValue (b'.take a'.length) := fun h => by rw [← va]; exact congrArg _ h
    rw [List.append_nil, e] at h1
    rw [e, vb, List.length_drop] at h2
    rw [List.length_drop] at h3
    rw [va] at h4 h5
    rw [h1, h4]
    generalize decimalValue (b'.take a'.length) = v1 at *
    generalize decimalValue (b'.drop a'.length) = v2 at *
    generalize 10 ^ (b'.length - a'.length) = P at *
    have key : m ≤ v1 ↔ m * P ≤ n := by
      constructor
      · intro h
        have := Nat.mul_le_mul_right P h
        rw [h2, Nat.mul_comm P]; omega
      · intro h
        refine Nat.le_of_not_lt fun h' => ?_
        have := Nat.mul_le_mul_right P (Nat.succ_le_of_lt h')
        rw [Nat.succ_mul] at this
        rw [Nat.mul_comm P] at h2
        omega
    rw [← key]
    constructor
    · rintro (h | ⟨h, _⟩)
      · omega
      · have := h6 h; omega
    · intro h
      by_cases hlt : m < v1
      · exact .inl hlt
      · exact .inr ⟨h5 (by omega), hne⟩
  · rw [if_neg hl]
    have e := List.take_append_drop b'.length a'
    have hlen : (a'.take b'.length).length = b'.length := by rw [List.length_take]; omega
    have hd1 : ∀ d ∈ a'.take b'.length, IsDigit d := fun d hd => da d (List.mem_of_mem_take hd)
    have hd2 : ∀ d ∈ a'.drop b'.length, IsDigit d := fun d hd => da d (List.mem_of_mem_drop hd)
    have h1 := append_lt_append_iff (a'.drop b'.length) [] hlen
    have h2 := decimalValue_append (a'.take b'.length) (a'.drop b'.length)
    have h3 := decimalValue_lt _ hd2
    have h4 := decimalValue_lt_iff _ b' hlen hd1 db
    rw [List.append_nil, e] at h1
    rw [e, va, List.length_drop] at h2
    rw [List.length_drop] at h3
    rw [vb] at h4
    rw [h1, h4]
    generalize decimalValue (a'.take b'.length) = v1 at *
    generalize decimalValue (a'.drop b'.length) = v2 at *
    generalize 10 ^ (a'.length - b'.length) = P at *
    have key : v1 < n ↔ m < n * P := by
      constructor
      · intro h
        have := Nat.mul_le_mul_right P (Nat.succ_le_of_lt h)
        rw [Nat.succ_mul] at this
        rw [Nat.mul_comm P] at h2
        omega
      · intro h
        refine Nat.lt_of_not_le fun h' => ?_
        have := Nat.mul_le_mul_right P h'
        rw [Nat.mul_comm P] at h2
        omega
    rw [← key]
    simp

/-- Four numbers in the order of their limits. -/
example : ByteLt [49, 48] [49, 48, 48] ∧ ByteLt [49, 48, 48] [50] ∧ ByteLt [50] [57, 57] ∧
    LimitValue.ofNat 10 = .finite [49, 48] ∧ LimitValue.ofNat 100 = .finite [49, 48, 48] ∧
    LimitValue.ofNat 2 = .finite [50] ∧ LimitValue.ofNat 99 = .finite [57, 57] := by
  simp only [← byteLt_iff]
  decide

example : LimitValue.ofNat 1907 = .finite [49, 57, 48, 55] ∧ LimitValue.ofNat 2000 = .finite [50, 48, 48, 48] := by
  decide

end Hyperbee
