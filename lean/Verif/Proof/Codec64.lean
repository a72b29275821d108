import Verif.Model.Codec64
import Verif.Proof.Codec
/-!
# Lemmas about the 64-bit wire format
-/

namespace Hyperbee

/-! ## The 64-bit decoders only ever refuse more -/

theorem varint64_sub : ∀ (bs : Bytes) (c : Nat) {x : Nat × Bytes}, decodeVarint64From c bs = some x →
    decodeVarint bs = some x := by
  intro bs
  induction bs with
  | nil => intro c x h; cases h
  | cons b bs ih =>
    intro c x h
    unfold decodeVarint64From at h
    unfold decodeVarint
    split at h
    · cases h
    · split at h
      · rename_i hb
        rw [if_pos hb]
        split at h
        · cases h
        · exact h
      · rename_i hb
        rw [if_neg hb]
        cases hr : decodeVarint64From (c + 1) bs with
        | none => rw [hr] at h; cases h
        | some y =>
          rw [hr] at h
          rw [ih _ hr]
          exact h

theorem varint64_lt : ∀ (bs : Bytes) (c : Nat) {x : Nat × Bytes}, decodeVarint64From c bs = some x →
    c < 10 ∧ x.1 < 2 ^ (64 - 7 * c) := by
  intro bs
  induction bs with
  | nil => intro c x h; cases h
  | cons b bs ih =>
    intro c x h
    unfold decodeVarint64From at h
    split at h
    · cases h
    · rename_i hc
      refine ⟨by omega, ?_⟩
      have hc' : c = 0 ∨ c = 1 ∨ c = 2 ∨ c = 3 ∨ c = 4 ∨ c = 5 ∨ c = 6 ∨ c = 7 ∨ c = 8 ∨ c = 9 := by omega
      split at h
      · rename_i hb
        split at h
        · cases h
        · rename_i h9
          cases h
          rcases hc' with rfl | rfl | rfl | rfl | rfl | rfl | rfl | rfl | rfl | rfl <;> simp at h9 ⊢ <;> omega
      · rename_i hb
        have hb' := b.toNat_lt
        cases hr : decodeVarint64From (c + 1) bs with
        | none => rw [hr] at h; cases h
        | some y =>
          rw [hr] at h
          cases h
          obtain ⟨h1, h2⟩ := ih _ hr
          rcases hc' with rfl | rfl | rfl | rfl | rfl | rfl | rfl | rfl | rfl | rfl <;> simp at h2 ⊢ <;> omega

theorem payload64_sub {w : Nat} {bs : Bytes} {x : Field × Bytes} (h : decodePayload64 w bs = some x) :
    decodePayload w bs = some x := by
  unfold decodePayload64 at h
  unfold decodePayload
  split at h
  · cases hv : decodeVarint64 bs with
    | none => rw [hv] at h; cases h
    | some y => rw [hv] at h; rw [varint64_sub _ _ hv]; exact h
  · exact h
  · cases hv : decodeVarint64 bs with
    | none => rw [hv] at h; cases h
    | some y => rw [hv] at h; rw [varint64_sub _ _ hv]; exact h
  · exact h
  · cases h

theorem skipGroup64_sub {lim : Nat} : ∀ (fuel : Nat) (st : List Nat) (bs : Bytes) {r : Bytes},
    skipGroup64F lim fuel st bs = some r → skipGroupF fuel st bs = some r := by
  intro fuel
  induction fuel with
  | zero =>
    intro st bs r h
    cases st with
    | nil => exact h
    | cons t st => cases h
  | succ fuel ih =>
    intro st bs r h
    cases st with
    | nil => exact h
    | cons t st =>
      unfold skipGroup64F at h
      unfold skipGroupF
      cases hv : decodeVarint64 bs with
      | none => rw [hv] at h; cases h
      | some y =>
        obtain ⟨key, r'⟩ := y
        rw [hv] at h
        rw [varint64_sub _ _ hv]
        simp only [] at h ⊢
        split at h
        · cases h
        · split at h
          · cases h
          · rename_i h0
            rw [if_neg h0]
            split at h
            · rename_i h4
              rw [if_pos h4]
              split at h
              · rename_i ht
                rw [if_pos ht]
                exact ih _ _ h
              · cases h
            · rename_i h4
              rw [if_neg h4]
              split at h
              · cases h
              · split at h
                · rename_i h3
                  rw [if_pos h3]
                  exact ih _ _ h
                · rename_i h3
                  rw [if_neg h3]
                  cases hp : decodePayload64 (key % 8) r' with
                  | none => rw [hp] at h; cases h
                  | some z =>
                    rw [hp] at h
                    rw [payload64_sub hp]
                    exact ih _ _ h

theorem field64_sub {lim t w : Nat} {bs : Bytes} {x : Field × Bytes} (h : decodeField64 lim t w bs = some x) :
    decodeField t w bs = some x := by
  unfold decodeField64 at h
  unfold decodeField
  split at h
  · rename_i hw
    rw [if_pos hw]
    cases hs : skipGroup64F lim bs.length [t] bs with
    | none => rw [hs] at h; cases h
    | some r => rw [hs] at h; rw [skipGroup64_sub _ _ _ hs]; exact h
  · rename_i hw
    rw [if_neg hw]
    exact payload64_sub h

theorem fields64_sub {lim : Nat} : ∀ (fuel : Nat) (bs : Bytes) {fs : List (Nat × Field)}, decodeFields64F lim fuel bs = some fs →
    decodeFieldsF fuel bs = some fs := by
  intro fuel
  induction fuel with
  | zero =>
    intro bs fs h
    cases bs with
    | nil => exact h
    | cons b bs => cases h
  | succ fuel ih =>
    intro bs fs h
    cases bs with
    | nil => exact h
    | cons b bs =>
      unfold decodeFields64F at h
      unfold decodeFieldsF
      cases hv : decodeVarint64 (b :: bs) with
      | none => rw [hv] at h; cases h
      | some y =>
        obtain ⟨key, r⟩ := y
        rw [hv] at h
        rw [varint64_sub _ _ hv]
        simp only [] at h ⊢
        split at h
        · cases h
        · split at h
          · cases h
          · rename_i h0
            rw [if_neg h0]
            cases hp : decodeField64 lim (key / 8) (key % 8) r with
            | none => rw [hp] at h; cases h
            | some z =>
              obtain ⟨f, r'⟩ := z
              rw [hp] at h
              rw [field64_sub hp]
              simp only [] at h ⊢
              cases hf : decodeFields64F lim fuel r' with
              | none => rw [hf] at h; cases h
              | some gs => rw [hf] at h; rw [ih _ hf]; exact h

theorem varints64_sub : ∀ (fuel : Nat) (bs : Bytes) {ns : List Nat}, decodeVarints64F fuel bs = some ns →
    decodeVarintsF fuel bs = some ns := by
  intro fuel
  induction fuel with
  | zero =>
    intro bs ns h
    cases bs with
    | nil => exact h
    | cons b bs => cases h
  | succ fuel ih =>
    intro bs ns h
    cases bs with
    | nil => exact h
    | cons b bs =>
      unfold decodeVarints64F at h
      unfold decodeVarintsF
      cases hv : decodeVarint64 (b :: bs) with
      | none => rw [hv] at h; cases h
      | some y =>
        obtain ⟨n, r⟩ := y
        rw [hv] at h
        rw [varint64_sub _ _ hv]
        simp only [] at h ⊢
        cases hf : decodeVarints64F fuel r with
        | none => rw [hf] at h; cases h
        | some gs => rw [hf] at h; rw [ih _ hf]; exact h

theorem mergeRepeated64_sub {old : List Nat} {f : Field} {ns : List Nat} (h : mergeRepeated64 old f = some ns) :
    mergeRepeated old f = some ns := by
  cases f with
  | len b =>
    simp only [mergeRepeated64, decodeVarints64] at h
    simp only [mergeRepeated, decodeVarints]
    cases hv : decodeVarints64F b.length b with
    | none => rw [hv] at h; cases h
    | some y => rw [hv] at h; rw [varints64_sub _ _ hv]; exact h
  | varint n => exact h
  | fixed64 b => cases h
  | fixed32 b => cases h
  | group => cases h

theorem mergeLevel64_sub : ∀ (fs : List (Nat × Field)) (l : Level) {l' : Level}, mergeLevel64 fs l = some l' →
    mergeLevel fs l = some l' := by
  intro fs
  induction fs with
  | nil => intro l l' h; exact h
  | cons x fs ih =>
    obtain ⟨tag, f⟩ := x
    intro l l' h
    unfold mergeLevel64 at h
    unfold mergeLevel
    split at h
    · rename_i ht
      rw [if_pos ht]
      cases hm : mergeRepeated64 l.keys f with
      | none => rw [hm] at h; cases h
      | some ks => rw [hm] at h; rw [mergeRepeated64_sub hm]; exact ih _ h
    · rename_i ht
      rw [if_neg ht]
      split at h
      · rename_i ht2
        rw [if_pos ht2]
        cases hm : mergeRepeated64 l.children f with
        | none => rw [hm] at h; cases h
        | some ks => rw [hm] at h; rw [mergeRepeated64_sub hm]; exact ih _ h
      · rename_i ht2
        rw [if_neg ht2]
        exact ih _ h

theorem decodeLevel64_sub {bs : Bytes} {l : Level} (h : decodeLevel64 bs = some l) : decodeLevel bs = some l := by
  unfold decodeLevel64 decodeFields64 at h
  unfold decodeLevel decodeFields
  cases hf : decodeFields64F _ bs.length bs with
  | none => rw [hf] at h; cases h
  | some fs => rw [hf] at h; rw [fields64_sub _ _ hf]; exact mergeLevel64_sub _ _ h

theorem mergeYolo64_sub : ∀ (fs : List (Nat × Field)) (ls : List Level) {ls' : List Level}, mergeYolo64 fs ls = some ls' →
    mergeYolo fs ls = some ls' := by
  intro fs
  induction fs with
  | nil => intro l l' h; exact h
  | cons x fs ih =>
    obtain ⟨tag, f⟩ := x
    intro l l' h
    unfold mergeYolo64 at h
    unfold mergeYolo
    split at h
    · rename_i ht
      rw [if_pos ht]
      cases f with
      | len b =>
        simp only [] at h ⊢
        cases hm : decodeLevel64 b with
        | none => rw [hm] at h; cases h
        | some l => rw [hm] at h; rw [decodeLevel64_sub hm]; exact ih _ h
      | varint n => cases h
      | fixed64 b => cases h
      | fixed32 b => cases h
      | group => cases h
    · rename_i ht
      rw [if_neg ht]
      exact ih _ h

theorem decodeYolo64_sub {bs : Bytes} {ls : List Level} (h : decodeYolo64 bs = some ls) : decodeYolo bs = some ls := by
  unfold decodeYolo64 decodeFields64 at h
  unfold decodeYolo decodeFields
  cases hf : decodeFields64F _ bs.length bs with
  | none => rw [hf] at h; cases h
  | some fs => rw [hf] at h; rw [fields64_sub _ _ hf]; exact mergeYolo64_sub _ _ h

theorem decodeNode64_sub {bs : Bytes} {m : NodeSchema} (h : decodeNode64 bs = some m) : decodeNode bs = some m := by
  unfold decodeNode64 decodeFields64 at h
  unfold decodeNode decodeFields
  cases hf : decodeFields64F _ bs.length bs with
  | none => rw [hf] at h; cases h
  | some fs => rw [hf] at h; rw [fields64_sub _ _ hf]; exact h

/-! ## They take back what the encoders make of numbers below 2^64 -/

theorem decode64_encodeVarintF (fuel : Nat) : ∀ n c, n ≤ fuel → c < 10 → n < 2 ^ (64 - 7 * c) → ∀ rest,
    decodeVarint64From c (encodeVarintF fuel n ++ rest) = some (n, rest) := by
  induction fuel with
  | zero =>
    intro n c h hc hn rest
    have : n = 0 := by omega
    subst this
    simp [encodeVarintF, decodeVarint64From]
    omega
  | succ f ih =>
    intro n c h hc hn rest
    have hc' : c = 0 ∨ c = 1 ∨ c = 2 ∨ c = 3 ∨ c = 4 ∨ c = 5 ∨ c = 6 ∨ c = 7 ∨ c = 8 ∨ c = 9 := by omega
    unfold encodeVarintF
    by_cases h128 : n < 128
    · have hb : (UInt8.ofNat n).toNat = n := by
        simp [UInt8.toNat_ofNat']; omega
      simp only [h128, if_true, List.cons_append, List.nil_append, decodeVarint64From, hb]
      rw [if_neg (by omega), if_neg]
      rintro ⟨rfl, h2⟩
      simp at hn
      omega
    · have hb : (UInt8.ofNat (n % 128 + 128)).toNat = n % 128 + 128 := by
        simp [UInt8.toNat_ofNat']; omega
      have hlt : ¬ (n % 128 + 128 < 128) := by omega
      have hc9 : c < 9 := by
        rcases hc' with rfl | rfl | rfl | rfl | rfl | rfl | rfl | rfl | rfl | rfl <;> simp at hn <;> omega
      have hn' : n / 128 < 2 ^ (64 - 7 * (c + 1)) := by
        rcases hc' with rfl | rfl | rfl | rfl | rfl | rfl | rfl | rfl | rfl | rfl <;> simp at hn ⊢ <;> omega
      simp only [h128, if_false, List.cons_append, decodeVarint64From, hb, hlt]
      rw [if_neg (by omega), ih (n / 128) (c + 1) (by omega) (by omega) hn' rest]
      simp
      omega

theorem decode64_encodeVarint {n : Nat} (h : n < 2 ^ 64) (rest : Bytes) :
    decodeVarint64 (encodeVarint n ++ rest) = some (n, rest) :=
  decode64_encodeVarintF n n 0 (Nat.le_refl _) (by omega) (by simpa using h) rest

/-- `bs` decodes to the fields `fs` with any sufficient fuel. -/
def FieldsOf64 (fs : List (Nat × Field)) (bs : Bytes) : Prop :=
  ∀ lim fuel, bs.length ≤ fuel → decodeFields64F lim fuel bs = some fs

theorem FieldsOf64.nil : FieldsOf64 [] [] := by
  intro lim fuel _
  cases fuel <;> rfl

theorem FieldsOf64.cons {fs : List (Nat × Field)} {rest : Bytes} (h : FieldsOf64 fs rest)
    (tag : Nat) (ht : tag ≠ 0) (ht' : tag < 2 ^ 28) (b : Bytes) (hb : b.length < 2 ^ 64) :
    FieldsOf64 ((tag, .len b) :: fs) (encodeLenField tag b ++ rest) := by
  intro lim fuel hf
  have hne := encodeVarint_ne_nil (tag * 8 + 2)
  have hlen : 0 < (encodeVarint (tag * 8 + 2)).length := List.length_pos_iff.mpr hne
  have hdec := decode64_encodeVarint (n := tag * 8 + 2) (by omega) (encodeVarint b.length ++ (b ++ rest))
  have e : encodeLenField tag b ++ rest
      = encodeVarint (tag * 8 + 2) ++ (encodeVarint b.length ++ (b ++ rest)) := by
    simp [encodeLenField, encodeKeyLen]
  rw [e] at hf ⊢
  cases fuel with
  | zero => simp only [List.length_append] at hf; omega
  | succ f =>
    have hf' : rest.length ≤ f := by simp at hf; omega
    revert hdec
    generalize hx : encodeVarint (tag * 8 + 2) ++ (encodeVarint b.length ++ (b ++ rest)) = x
    cases x with
    | nil => simp at hx; exact absurd hx.1 hne
    | cons c cs =>
      intro hdec
      unfold decodeFields64F
      rw [hdec]
      have h8 : (tag * 8 + 2) / 8 = tag := by omega
      have h2 : (tag * 8 + 2) % 8 = 2 := by omega
      have h32 : ¬ (tag * 8 + 2 ≥ 2 ^ 32) := by omega
      simp only [h8, h2, h32, ht, if_false, decodeField64, decodePayload64, (by decide : (2 : Nat) ≠ 3)]
      rw [decode64_encodeVarint hb]
      simp only [takeBytes_append, Option.map_some]
      rw [h lim f hf']

theorem FieldsOf64.decode {fs bs} (h : FieldsOf64 fs bs) (lim : Nat) : decodeFields64 lim bs = some fs :=
  h lim _ (Nat.le_refl _)

theorem decodeVarints64F_flatMap (ns : List Nat) : (∀ n ∈ ns, n < 2 ^ 64) → ∀ fuel,
    (ns.flatMap encodeVarint).length ≤ fuel →
    decodeVarints64F fuel (ns.flatMap encodeVarint) = some ns := by
  induction ns with
  | nil => intro _ fuel _; cases fuel <;> rfl
  | cons n ns ih =>
    intro hn fuel hf
    have hne := encodeVarint_ne_nil n
    have hlen : 0 < (encodeVarint n).length := List.length_pos_iff.mpr hne
    have hdec := decode64_encodeVarint (hn n (by simp)) (ns.flatMap encodeVarint)
    have e : (n :: ns).flatMap encodeVarint = encodeVarint n ++ ns.flatMap encodeVarint := rfl
    rw [e] at hf ⊢
    cases fuel with
    | zero => simp only [List.length_append] at hf; omega
    | succ f =>
      have hf' : (ns.flatMap encodeVarint).length ≤ f := by
        rw [List.length_append] at hf; omega
      revert hdec
      generalize hx : encodeVarint n ++ ns.flatMap encodeVarint = x
      cases x with
      | nil => simp at hx; exact absurd hx.1 hne
      | cons c cs =>
        intro hdec
        unfold decodeVarints64F
        rw [hdec]
        simp only
        rw [ih (fun m hm => hn m (List.mem_cons_of_mem _ hm)) f hf']

theorem mergeRepeated64_flatMap (old ns : List Nat) (h : ∀ n ∈ ns, n < 2 ^ 64) :
    mergeRepeated64 old (.len (ns.flatMap encodeVarint)) = some (old ++ ns) := by
  simp only [mergeRepeated64, decodeVarints64, decodeVarints64F_flatMap ns h _ (Nat.le_refl _), Option.map_some]

theorem encodeLenField_length (tag : Nat) (b : Bytes) : b.length + 2 ≤ (encodeLenField tag b).length := by
  have h1 : 0 < (encodeVarint (tag * 8 + 2)).length := List.length_pos_iff.mpr (encodeVarint_ne_nil _)
  have h2 : 0 < (encodeVarint b.length).length := List.length_pos_iff.mpr (encodeVarint_ne_nil _)
  unfold encodeLenField encodeKeyLen
  simp only [List.length_append]
  omega

theorem encodePacked_length (tag : Nat) (ns : List Nat) : (ns.flatMap encodeVarint).length ≤ (encodePacked tag ns).length := by
  unfold encodePacked
  cases ns with
  | nil => simp
  | cons n ns =>
    simp only [List.isEmpty_cons, Bool.false_eq_true, if_false]
    have := encodeLenField_length tag ((n :: ns).flatMap encodeVarint)
    omega

theorem decodeLevel64_encodeLevel (l : Level) (hl : (encodeLevel l).length < 2 ^ 64)
    (hk : ∀ n ∈ l.keys, n < 2 ^ 64) (hc : ∀ n ∈ l.children, n < 2 ^ 64) : decodeLevel64 (encodeLevel l) = some l := by
  obtain ⟨ks, cs⟩ := l
  have hlk : (ks.flatMap encodeVarint).length < 2 ^ 64 := by
    have := encodePacked_length 1 ks
    simp only [encodeLevel, List.length_append] at hl; omega
  have hlc : (cs.flatMap encodeVarint).length < 2 ^ 64 := by
    have := encodePacked_length 2 cs
    simp only [encodeLevel, List.length_append] at hl; omega
  simp only at hk hc
  have hF : ∃ fs, FieldsOf64 fs (encodeLevel ⟨ks, cs⟩) ∧ fs =
      (if ks.isEmpty then [] else [(1, Field.len (ks.flatMap encodeVarint))]) ++
      (if cs.isEmpty then [] else [(2, Field.len (cs.flatMap encodeVarint))]) := by
    have hC : FieldsOf64 (if cs.isEmpty then [] else [(2, Field.len (cs.flatMap encodeVarint))]) (encodePacked 2 cs) := by
      unfold encodePacked
      cases cs with
      | nil => exact FieldsOf64.nil
      | cons c cs =>
        have := FieldsOf64.nil.cons 2 (by decide) (by decide) ((c :: cs).flatMap encodeVarint) hlc
        rw [List.append_nil] at this
        exact this
    refine ⟨_, ?_, rfl⟩
    unfold encodeLevel
    simp only
    unfold encodePacked
    cases ks with
    | nil => simp only [List.isEmpty_nil, if_true, List.nil_append]; exact hC
    | cons k ks =>
      simp only [List.isEmpty_cons, Bool.false_eq_true, if_false, List.singleton_append]
      exact hC.cons 1 (by decide) (by decide) ((k :: ks).flatMap encodeVarint) hlk
  obtain ⟨fs, h1, h2⟩ := hF
  unfold decodeLevel64
  rw [h1.decode, h2]
  cases ks with
  | nil =>
    cases cs with
    | nil => simp [mergeLevel64]
    | cons c cs =>
      simp only [List.isEmpty_nil, if_true, List.nil_append, List.isEmpty_cons, Bool.false_eq_true, if_false, mergeLevel64]
      rw [if_neg (by decide), mergeRepeated64_flatMap _ _ hc]
      simp
  | cons k ks =>
    cases cs with
    | nil =>
      simp only [List.isEmpty_nil, if_true, List.append_nil, List.isEmpty_cons, Bool.false_eq_true, if_false, mergeLevel64]
      rw [mergeRepeated64_flatMap _ _ hk]
      simp
    | cons c cs =>
      simp only [if_true, List.singleton_append, List.isEmpty_cons, Bool.false_eq_true, if_false, mergeLevel64]
      rw [mergeRepeated64_flatMap _ _ hk]
      simp only [show ¬ (2 = 1) by decide, if_false]
      rw [mergeRepeated64_flatMap _ _ hc]
      simp

theorem encodeYolo_mem {ls : List Level} {l : Level} (h : l ∈ ls) : (encodeLevel l).length + 2 ≤ (encodeYolo ls).length := by
  induction ls with
  | nil => cases h
  | cons a ls ih =>
    have e : encodeYolo (a :: ls) = encodeLenField 1 (encodeLevel a) ++ encodeYolo ls := rfl
    rw [e, List.length_append]
    have := encodeLenField_length 1 (encodeLevel a)
    rcases List.mem_cons.mp h with rfl | h
    · omega
    · have := ih h; omega

theorem encodeYolo_length (ls : List Level) : 2 * ls.length ≤ (encodeYolo ls).length := by
  induction ls with
  | nil => simp
  | cons a ls ih =>
    have e : encodeYolo (a :: ls) = encodeLenField 1 (encodeLevel a) ++ encodeYolo ls := rfl
    rw [e, List.length_append, List.length_cons]
    have := encodeLenField_length 1 (encodeLevel a)
    omega

theorem fieldsOf64_encodeYolo (ls : List Level) : (encodeYolo ls).length < 2 ^ 64 →
    FieldsOf64 (ls.map fun l => (1, .len (encodeLevel l))) (encodeYolo ls) := by
  induction ls with
  | nil => intro _; exact FieldsOf64.nil
  | cons l ls ih =>
    intro h
    have e : encodeYolo (l :: ls) = encodeLenField 1 (encodeLevel l) ++ encodeYolo ls := rfl
    have h1 := encodeYolo_mem (List.mem_cons_self (a := l) (l := ls))
    have h2 : (encodeYolo ls).length ≤ (encodeYolo (l :: ls)).length := by rw [e, List.length_append]; omega
    exact (ih (by omega)).cons 1 (by decide) (by decide) (encodeLevel l) (by omega)

theorem mergeYolo64_map (ls : List Level) : (∀ l ∈ ls, (encodeLevel l).length < 2 ^ 64 ∧ (∀ n ∈ l.keys, n < 2 ^ 64) ∧
    ∀ n ∈ l.children, n < 2 ^ 64) → ∀ acc,
    mergeYolo64 (ls.map fun l => (1, .len (encodeLevel l))) acc = some (acc ++ ls) := by
  induction ls with
  | nil => intro _ acc; simp [mergeYolo64]
  | cons l ls ih =>
    intro h acc
    obtain ⟨h1, h2, h3⟩ := h l (by simp)
    simp only [List.map_cons, mergeYolo64, if_true, decodeLevel64_encodeLevel l h1 h2 h3]
    rw [ih (fun l hl => h l (List.mem_cons_of_mem _ hl))]
    simp

theorem decodeYolo64_encodeYolo (ls : List Level) (hl : (encodeYolo ls).length < 2 ^ 64)
    (hn : ∀ l ∈ ls, (∀ n ∈ l.keys, n < 2 ^ 64) ∧ ∀ n ∈ l.children, n < 2 ^ 64) :
    decodeYolo64 (encodeYolo ls) = some ls := by
  unfold decodeYolo64
  rw [(fieldsOf64_encodeYolo ls hl).decode]
  simp only
  rw [mergeYolo64_map]
  · rfl
  · intro l h
    have := encodeYolo_mem h
    exact ⟨by omega, hn l h⟩

theorem decodeNode64_encodeNode (m : NodeSchema) (h : (encodeNode m).length < 2 ^ 64) :
    decodeNode64 (encodeNode m) = some m := by
  obtain ⟨i, k, v⟩ := m
  have h1 := encodeLenField_length 1 i
  have h2 := encodeLenField_length 2 k
  unfold decodeNode64
  unfold encodeNode encodeOptLen at h ⊢
  cases v with
  | none =>
    simp only [List.length_append] at h
    have := ((FieldsOf64.nil.cons 2 (by decide) (by decide) k (by omega)).cons 1 (by decide) (by decide) i (by omega)).decode
    simp only [List.append_nil] at this
    simp [this, mergeNode]
  | some v =>
    have h3 := encodeLenField_length 3 v
    simp only [List.length_append] at h
    have := (((FieldsOf64.nil.cons 3 (by decide) (by decide) v (by omega)).cons 2 (by decide) (by decide) k (by omega)).cons 1
      (by decide) (by decide) i (by omega)).decode
    simp only [List.append_nil] at this
    simp [this, mergeNode]

theorem levelsToNodes64_map (ns : List Node) : levelsToNodes64 (ns.map toLevel) = some ns := by
  induction ns with
  | nil => rfl
  | cons n ns ih => simp [levelsToNodes64, levelToNode_toLevel, ih]

theorem decodeMetadata_encode (m : Metadata) (h : (encodeMetadata m).length < 2 ^ 64) :
    ∃ fs, decodeFields64 99 (encodeMetadata m) = some fs ∧ mergeMetadata fs ⟨none, none⟩ = some m := by
  obtain ⟨a, b⟩ := m
  unfold encodeMetadata encodeOptLen at h ⊢
  cases a with
  | none =>
    cases b with
    | none => exact ⟨[], FieldsOf64.nil.decode 99, rfl⟩
    | some b =>
      have h2 := encodeLenField_length 2 b
      simp only [List.length_append, List.length_nil] at h
      have := (FieldsOf64.nil.cons 2 (by decide) (by decide) b (by omega)).decode 99
      simp only [List.append_nil] at this
      exact ⟨_, this, by simp [mergeMetadata]⟩
  | some a =>
    have h1 := encodeLenField_length 1 a
    cases b with
    | none =>
      simp only [List.length_append, List.length_nil] at h
      have := (FieldsOf64.nil.cons 1 (by decide) (by decide) a (by omega)).decode 99
      simp only [List.append_nil] at this
      exact ⟨_, by simpa using this, by simp [mergeMetadata]⟩
    | some b =>
      have h2 := encodeLenField_length 2 b
      simp only [List.length_append] at h
      have := ((FieldsOf64.nil.cons 2 (by decide) (by decide) b (by omega)).cons 1 (by decide) (by decide) a (by omega)).decode 99
      simp only [List.append_nil] at this
      exact ⟨_, this, by simp [mergeMetadata]⟩

theorem decodeHeader64_encode (h : Header) (hu : validUtf8 h.protocol = true) (hl : (encodeHeader h).length < 2 ^ 64) :
    decodeHeader64 (encodeHeader h) = some h := by
  obtain ⟨p, m⟩ := h
  have h1 := encodeLenField_length 1 p
  unfold decodeHeader64
  unfold encodeHeader encodeOptLen at hl ⊢
  simp only at hu
  cases m with
  | none =>
    simp only [Option.map_none, List.length_append, List.length_nil] at hl
    have := (FieldsOf64.nil.cons 1 (by decide) (by decide) p (by omega)).decode 100
    simp only [List.append_nil] at this
    simp [this, mergeHeader64, hu]
  | some m =>
    have h2 := encodeLenField_length 2 (encodeMetadata m)
    simp only [Option.map_some, List.length_append] at hl
    have := ((FieldsOf64.nil.cons 2 (by decide) (by decide) (encodeMetadata m) (by omega)).cons 1 (by decide) (by decide) p
      (by omega)).decode 100
    simp only [List.append_nil] at this
    obtain ⟨fs, g1, g2⟩ := decodeMetadata_encode m (by omega)
    simp [this, mergeHeader64, hu, g1, g2]

end Hyperbee
