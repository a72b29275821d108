import Verif.Model.Debug
/-!
# The check of `String::from_utf8` accepts exactly the encodings of characters
-/

namespace Hyperbee

theorem byteIn_iff {a b x : UInt8} : byteIn a b x = true ↔ a.toNat ≤ x.toNat ∧ x.toNat ≤ b.toNat := by
  unfold byteIn
  rw [Bool.and_eq_true, decide_eq_true_eq, decide_eq_true_eq, UInt8.le_iff_toNat_le, UInt8.le_iff_toNat_le]

theorem byteIn_ofNat {a b : UInt8} {n : Nat} (h : n < 256) :
    byteIn a b (UInt8.ofNat n) = true ↔ a.toNat ≤ n ∧ n ≤ b.toNat := by
  rw [byteIn_iff, UInt8.toNat_ofNat_of_lt' h]

theorem utf8_char (c : Char) (rest : Bytes) : utf8Valid (String.utf8EncodeChar c ++ rest) = utf8Valid rest := by
  have hv : c.val.toNat < 0xd800 ∨ (0xdfff < c.val.toNat ∧ c.val.toNat < 0x110000) := c.valid
  unfold String.utf8EncodeChar
  simp only []
  generalize c.val.toNat = v at hv
  have eq8 : ∀ {n m : Nat}, n < 256 → m < 256 → (UInt8.ofNat n = UInt8.ofNat m ↔ n = m) := by
    intro n m hn hm
    constructor
    · intro h
      have := congrArg UInt8.toNat h
      rwa [UInt8.toNat_ofNat_of_lt' hn, UInt8.toNat_ofNat_of_lt' hm] at this
    · rintro rfl; rfl
  split
  · simp only [List.cons_append, List.nil_append]
    rw [utf8Valid.eq_def]
    simp only []
    rw [if_pos ((byteIn_ofNat (by omega)).mpr ⟨by simp, by simp <;> omega⟩)]
  · split
    · simp only [List.cons_append, List.nil_append]
      rw [utf8Valid.eq_def]
      simp only []
      rw [if_neg (by rw [byteIn_ofNat (by omega)]; simp <;> omega),
        if_pos ((byteIn_ofNat (by omega)).mpr ⟨by simp <;> omega, by simp <;> omega⟩),
        (byteIn_ofNat (by omega)).mpr ⟨by simp, by simp <;> omega⟩, Bool.true_and]
    · split
      · simp only [List.cons_append, List.nil_append]
        rw [utf8Valid.eq_def]
        simp only []
        rw [if_neg (by rw [byteIn_ofNat (by omega)]; simp <;> omega),
          if_neg (by rw [byteIn_ofNat (by omega)]; simp <;> omega),
          if_pos ((byteIn_ofNat (by omega)).mpr ⟨by simp, by simp <;> omega⟩),
          (byteIn_ofNat (a := 0x80) (b := 0xBF) (n := v % 64 + 128) (by omega)).mpr ⟨by simp, by simp <;> omega⟩]
        rw [show (0xE0 : UInt8) = UInt8.ofNat 0xE0 from rfl, show (0xED : UInt8) = UInt8.ofNat 0xED from rfl]
        simp only [eq8 (show v / 4096 % 16 + 224 < 256 by omega) (show (0xE0 : Nat) < 256 by omega),
          eq8 (show v / 4096 % 16 + 224 < 256 by omega) (show (0xED : Nat) < 256 by omega)]
        rw [(byteIn_ofNat (by omega)).mpr ⟨?_, ?_⟩]
        · simp
        · split <;> simp <;> omega
        · split <;> simp <;> omega
      · simp only [List.cons_append, List.nil_append]
        rw [utf8Valid.eq_def]
        simp only []
        rw [if_neg (by rw [byteIn_ofNat (by omega)]; simp <;> omega),
          if_neg (by rw [byteIn_ofNat (by omega)]; simp <;> omega),
          if_neg (by rw [byteIn_ofNat (by omega)]; simp <;> omega),
          (byteIn_ofNat (a := 0xF0) (b := 0xF4) (by omega)).mpr ⟨by simp, by simp <;> omega⟩,
          (byteIn_ofNat (a := 0x80) (b := 0xBF) (n := v % 64 + 128) (by omega)).mpr ⟨by simp, by simp <;> omega⟩,
          (byteIn_ofNat (a := 0x80) (b := 0xBF) (n := v / 64 % 64 + 128) (by omega)).mpr ⟨by simp, by simp <;> omega⟩]
        rw [show (0xF0 : UInt8) = UInt8.ofNat 0xF0 from rfl, show (0xF4 : UInt8) = UInt8.ofNat 0xF4 from rfl]
        simp only [eq8 (show v / 262144 % 8 + 240 < 256 by omega) (show (0xF0 : Nat) < 256 by omega),
          eq8 (show v / 262144 % 8 + 240 < 256 by omega) (show (0xF4 : Nat) < 256 by omega)]
        rw [(byteIn_ofNat (by omega)).mpr ⟨?_, ?_⟩]
        · simp
        · split <;> simp <;> omega
        · split <;> simp <;> omega

/-- The encoding of the character number `v`. -/
theorem encodeChar_of {v : Nat} (h : v.isValidChar) {bs : Bytes}
    (hb : bs = if v ≤ 0x7f then [UInt8.ofNat v]
      else if v ≤ 0x7ff then [UInt8.ofNat (v / 64 % 0x20 + 0xc0), UInt8.ofNat (v % 0x40 + 0x80)]
      else if v ≤ 0xffff then [UInt8.ofNat (v / 4096 % 0x10 + 0xe0), UInt8.ofNat (v / 64 % 0x40 + 0x80),
        UInt8.ofNat (v % 0x40 + 0x80)]
      else [UInt8.ofNat (v / 262144 % 0x08 + 0xf0), UInt8.ofNat (v / 4096 % 0x40 + 0x80),
        UInt8.ofNat (v / 64 % 0x40 + 0x80), UInt8.ofNat (v % 0x40 + 0x80)]) :
    ∃ c : Char, bs = String.utf8EncodeChar c := by
  refine ⟨Char.ofNatAux v h, ?_⟩
  rw [hb]
  have : (Char.ofNatAux v h).val.toNat = v := by
    simp [Char.ofNatAux]
  unfold String.utf8EncodeChar
  simp only [this]

theorem toNat_ofNat_self (b : UInt8) {n : Nat} (h : n = b.toNat) : UInt8.ofNat n = b := by
  subst h; simp

theorem utf8_split : ∀ {b : Bytes}, utf8Valid b = true → ∃ cs : List Char, b = cs.flatMap String.utf8EncodeChar := by
  intro b
  induction b using utf8Valid.induct with
  | case1 => intro _; exact ⟨[], rfl⟩
  | case2 b0 rest h ih =>
    intro hv
    rw [utf8Valid.eq_def] at hv
    simp only [] at hv
    rw [if_pos h] at hv
    obtain ⟨cs, rfl⟩ := ih hv
    rw [byteIn_iff] at h
    simp at h
    obtain ⟨c, hc⟩ := encodeChar_of (v := b0.toNat) (.inl (by omega)) (bs := [b0]) (by
      rw [if_pos h]; simp)
    exact ⟨c :: cs, by rw [List.flatMap_cons, ← hc]; rfl⟩
  | case3 b0 h =>
    intro hv
    rw [utf8Valid.eq_def] at hv
    simp [h] at hv
  | case4 b0 h b1 rest h1 ih =>
    intro hv
    rw [utf8Valid.eq_def] at hv
    simp only [] at hv
    rw [if_neg h, if_pos h1, Bool.and_eq_true] at hv
    obtain ⟨cs, rfl⟩ := ih hv.2
    have h2 := hv.1
    rw [byteIn_iff] at h1 h2
    simp at h1 h2
    obtain ⟨c, hc⟩ := encodeChar_of (v := (b0.toNat - 0xc0) * 64 + (b1.toNat - 0x80)) (.inl (by omega)) (bs := [b0, b1]) (by
      rw [if_neg (by omega), if_pos (by omega), toNat_ofNat_self b0 (by omega), toNat_ofNat_self b1 (by omega)])
    exact ⟨c :: cs, by rw [List.flatMap_cons, ← hc]; rfl⟩
  | case5 b0 h b1 h1 =>
    intro hv
    rw [utf8Valid.eq_def] at hv
    simp [h, h1] at hv
  | case6 b0 h b1 h1 b2 rest h2 ih =>
    intro hv
    rw [utf8Valid.eq_def] at hv
    simp only [] at hv
    rw [if_neg h, if_neg h1, if_pos h2, Bool.and_eq_true, Bool.and_eq_true] at hv
    obtain ⟨cs, rfl⟩ := ih hv.2
    obtain ⟨⟨g1, g2⟩, _⟩ := hv
    rw [byteIn_iff] at h2 g1 g2
    have e0 : b0 = 0xE0 ↔ b0.toNat = 0xE0 := ⟨fun h => by rw [h]; rfl, fun h => UInt8.toNat_inj.mp (by rw [h]; rfl)⟩
    have e1 : b0 = 0xED ↔ b0.toNat = 0xED := ⟨fun h => by rw [h]; rfl, fun h => UInt8.toNat_inj.mp (by rw [h]; rfl)⟩
    simp only [e0, e1] at g1
    have g1' : (if b0.toNat = 0xE0 then 0xA0 else 0x80) ≤ b1.toNat ∧ b1.toNat ≤ (if b0.toNat = 0xED then 0x9F else 0xBF) := by
      refine ⟨?_, ?_⟩
      · have := g1.1; split at this <;> simp at this <;> simp_all
      · have := g1.2; split at this <;> simp at this <;> simp_all
    clear g1
    simp at h2 g2
    have hd : (b0.toNat - 0xe0) * 4096 + (b1.toNat - 0x80) * 64 + (b2.toNat - 0x80) < 0xd800 ∨
        0xdfff < (b0.toNat - 0xe0) * 4096 + (b1.toNat - 0x80) * 64 + (b2.toNat - 0x80) := by
      split at g1' <;> split at g1' <;> omega
    have hr : 0x7ff < (b0.toNat - 0xe0) * 4096 + (b1.toNat - 0x80) * 64 + (b2.toNat - 0x80) ∧ 0x80 ≤ b1.toNat ∧ b1.toNat ≤ 0xBF := by
      split at g1' <;> split at g1' <;> omega
    obtain ⟨c, hc⟩ := encodeChar_of (v := (b0.toNat - 0xe0) * 4096 + (b1.toNat - 0x80) * 64 + (b2.toNat - 0x80))
      (by unfold Nat.isValidChar; omega) (bs := [b0, b1, b2]) (by
      rw [if_neg (by omega), if_neg (by omega), if_pos (by omega), toNat_ofNat_self b0 (by omega),
        toNat_ofNat_self b1 (by omega), toNat_ofNat_self b2 (by omega)])
    exact ⟨c :: cs, by rw [List.flatMap_cons, ← hc]; rfl⟩
  | case7 b0 h b1 h1 b2 h2 =>
    intro hv
    rw [utf8Valid.eq_def] at hv
    simp [h, h1, h2] at hv
  | case8 b0 h b1 h1 b2 h2 b3 rest ih =>
    intro hv
    rw [utf8Valid.eq_def] at hv
    simp only [] at hv
    rw [if_neg h, if_neg h1, if_neg h2, Bool.and_eq_true, Bool.and_eq_true, Bool.and_eq_true, Bool.and_eq_true] at hv
    obtain ⟨cs, rfl⟩ := ih hv.2
    obtain ⟨⟨⟨⟨h3, g1⟩, g2⟩, g3⟩, _⟩ := hv
    rw [byteIn_iff] at h3 g1 g2 g3
    have e0 : b0 = 0xF0 ↔ b0.toNat = 0xF0 := ⟨fun h => by rw [h]; rfl, fun h => UInt8.toNat_inj.mp (by rw [h]; rfl)⟩
    have e1 : b0 = 0xF4 ↔ b0.toNat = 0xF4 := ⟨fun h => by rw [h]; rfl, fun h => UInt8.toNat_inj.mp (by rw [h]; rfl)⟩
    simp only [e0, e1] at g1
    have g1' : (if b0.toNat = 0xF0 then 0x90 else 0x80) ≤ b1.toNat ∧ b1.toNat ≤ (if b0.toNat = 0xF4 then 0x8F else 0xBF) := by
      refine ⟨?_, ?_⟩
      · have := g1.1; split at this <;> simp at this <;> simp_all
      · have := g1.2; split at this <;> simp at this <;> simp_all
    clear g1
    simp at h3 g2 g3
    have hr : 0xffff < (b0.toNat - 0xf0) * 262144 + (b1.toNat - 0x80) * 4096 + (b2.toNat - 0x80) * 64 + (b3.toNat - 0x80) ∧
        (b0.toNat - 0xf0) * 262144 + (b1.toNat - 0x80) * 4096 + (b2.toNat - 0x80) * 64 + (b3.toNat - 0x80) < 0x110000 ∧
        0x80 ≤ b1.toNat ∧ b1.toNat ≤ 0xBF := by
      split at g1' <;> split at g1' <;> omega
    obtain ⟨c, hc⟩ := encodeChar_of
      (v := (b0.toNat - 0xf0) * 262144 + (b1.toNat - 0x80) * 4096 + (b2.toNat - 0x80) * 64 + (b3.toNat - 0x80))
      (.inr (by omega)) (bs := [b0, b1, b2, b3]) (by
      rw [if_neg (by omega), if_neg (by omega), if_neg (by omega), toNat_ofNat_self b0 (by omega),
        toNat_ofNat_self b1 (by omega), toNat_ofNat_self b2 (by omega), toNat_ofNat_self b3 (by omega)])
    exact ⟨c :: cs, by rw [List.flatMap_cons, ← hc]; rfl⟩

theorem utf8Valid_iff {b : Bytes} : utf8Valid b = true ↔ ∃ cs : List Char, b = cs.flatMap String.utf8EncodeChar := by
  refine ⟨utf8_split, ?_⟩
  rintro ⟨cs, rfl⟩
  induction cs with
  | nil => rfl
  | cons c cs ih => rw [List.flatMap_cons, utf8_char]; exact ih

end Hyperbee
