import Verif.Model.Changes
/-!
# Lemmas about the wire format
-/

namespace Hyperbee

theorem encodeVarintF_ne_nil (fuel n : Nat) : encodeVarintF fuel n ≠ [] := by
  cases fuel with
  | zero => simp [encodeVarintF]
  | succ f => unfold encodeVarintF; split <;> simp

theorem encodeVarint_ne_nil (n : Nat) : encodeVarint n ≠ [] := encodeVarintF_ne_nil n n

theorem decode_encodeVarintF (fuel : Nat) : ∀ n, n ≤ fuel → ∀ rest,
    decodeVarint (encodeVarintF fuel n ++ rest) = some (n, rest) := by
  induction fuel with
  | zero =>
    intro n h rest
    have : n = 0 := by omega
    subst this
    simp [encodeVarintF, decodeVarint]
  | succ f ih =>
    intro n h rest
    unfold encodeVarintF
    by_cases hn : n < 128
    · have : (UInt8.ofNat n).toNat = n := by
        simp [UInt8.toNat_ofNat']; omega
      simp [hn, decodeVarint, this]
    · have hb : (UInt8.ofNat (n % 128 + 128)).toNat = n % 128 + 128 := by
        simp [UInt8.toNat_ofNat']; omega
      have hlt : ¬ (n % 128 + 128 < 128) := by omega
      simp only [hn, if_false, List.cons_append, decodeVarint, hb, hlt]
      rw [ih (n / 128) (by omega) rest]
      simp
      omega

theorem decode_encodeVarint (n : Nat) (rest : Bytes) :
    decodeVarint (encodeVarint n ++ rest) = some (n, rest) :=
  decode_encodeVarintF n n (Nat.le_refl _) rest

theorem takeBytes_append (b rest : Bytes) : takeBytes b.length (b ++ rest) = some (b, rest) := by
  simp [takeBytes]

/-- `bs` decodes to the fields `fs` with any sufficient fuel. -/
def FieldsOf (fs : List (Nat × Field)) (bs : Bytes) : Prop :=
  ∀ fuel, bs.length ≤ fuel → decodeFieldsF fuel bs = some fs

theorem FieldsOf.nil : FieldsOf [] [] := by
  intro fuel _
  cases fuel <;> rfl

theorem FieldsOf.cons {fs : List (Nat × Field)} {rest : Bytes} (h : FieldsOf fs rest)
    (tag : Nat) (ht : tag ≠ 0) (b : Bytes) :
    FieldsOf ((tag, .len b) :: fs) (encodeLenField tag b ++ rest) := by
  intro fuel hf
  have hne := encodeVarint_ne_nil (tag * 8 + 2)
  have hlen : 0 < (encodeVarint (tag * 8 + 2)).length := List.length_pos_iff.mpr hne
  have hdec := decode_encodeVarint (tag * 8 + 2) (encodeVarint b.length ++ (b ++ rest))
  have e : encodeLenField tag b ++ rest
      = encodeVarint (tag * 8 + 2) ++ (encodeVarint b.length ++ (b ++ rest)) := by
    simp [encodeLenField, encodeKeyLen]
  rw [e] at hf ⊢
  cases fuel with
  | zero => simp only [List.length_append] at hf; omega
  | succ f =>
    have hf' : rest.length ≤ f := by simp at hf; omega
    revert hdec
    generalize hx : encodeVarint (tag * 8 + 2) ++ (encodeVarint b.length ++ (b ++ rest)) = x
    cases x with
    | nil => simp at hx; exact absurd hx.1 hne
    | cons c cs =>
      intro hdec
      unfold decodeFieldsF
      rw [hdec]
      have h8 : (tag * 8 + 2) / 8 = tag := by omega
      have h2 : (tag * 8 + 2) % 8 = 2 := by omega
      simp only [h8, h2, ht, if_false, decodeField, decodePayload, (by decide : (2 : Nat) ≠ 3)]
      rw [decode_encodeVarint]
      simp only [takeBytes_append, Option.map_some]
      rw [h f hf']

theorem FieldsOf.decode {fs bs} (h : FieldsOf fs bs) : decodeFields bs = some fs :=
  h _ (Nat.le_refl _)

theorem decodeVarintsF_flatMap (ns : List Nat) : ∀ fuel,
    (ns.flatMap encodeVarint).length ≤ fuel →
    decodeVarintsF fuel (ns.flatMap encodeVarint) = some ns := by
  induction ns with
  | nil => intro fuel _; cases fuel <;> rfl
  | cons n ns ih =>
    intro fuel hf
    have hne := encodeVarint_ne_nil n
    have hlen : 0 < (encodeVarint n).length := List.length_pos_iff.mpr hne
    have hdec := decode_encodeVarint n (ns.flatMap encodeVarint)
    have e : (n :: ns).flatMap encodeVarint = encodeVarint n ++ ns.flatMap encodeVarint := rfl
    rw [e] at hf ⊢
    cases fuel with
    | zero => simp only [List.length_append] at hf; omega
    | succ f =>
      have hf' : (ns.flatMap encodeVarint).length ≤ f := by
        rw [List.length_append] at hf; omega
      revert hdec
      generalize hx : encodeVarint n ++ ns.flatMap encodeVarint = x
      cases x with
      | nil => simp at hx; exact absurd hx.1 hne
      | cons c cs =>
        intro hdec
        unfold decodeVarintsF
        rw [hdec]
        simp only
        rw [ih f hf']

theorem decodeVarints_flatMap (ns : List Nat) :
    decodeVarints (ns.flatMap encodeVarint) = some ns :=
  decodeVarintsF_flatMap ns _ (Nat.le_refl _)

theorem mergeRepeated_flatMap (old ns : List Nat) :
    mergeRepeated old (.len (ns.flatMap encodeVarint)) = some (old ++ ns) := by
  simp [mergeRepeated, decodeVarints_flatMap]

theorem decodeLevel_encodeLevel (l : Level) : decodeLevel (encodeLevel l) = some l := by
  obtain ⟨ks, cs⟩ := l
  unfold decodeLevel encodeLevel encodePacked
  cases ks with
  | nil =>
    cases cs with
    | nil =>
      have := FieldsOf.nil.decode
      simp [this, mergeLevel]
    | cons c cs =>
      have := (FieldsOf.nil.cons 2 (by decide) ((c :: cs).flatMap encodeVarint)).decode
      simp only [List.append_nil] at this
      simp only [List.isEmpty_nil, if_true, List.nil_append, List.isEmpty_cons, Bool.false_eq_true,
        if_false, this, mergeLevel]
      rw [mergeRepeated_flatMap]
      simp
  | cons k ks =>
    cases cs with
    | nil =>
      have := (FieldsOf.nil.cons 1 (by decide) ((k :: ks).flatMap encodeVarint)).decode
      simp only [List.append_nil] at this
      simp only [List.isEmpty_nil, if_true, List.append_nil, List.isEmpty_cons, Bool.false_eq_true,
        if_false, this, mergeLevel]
      rw [mergeRepeated_flatMap]
      simp
    | cons c cs =>
      have := ((FieldsOf.nil.cons 2 (by decide) ((c :: cs).flatMap encodeVarint)).cons 1 (by decide)
        ((k :: ks).flatMap encodeVarint)).decode
      simp only [List.append_nil] at this
      simp only [List.isEmpty_cons, Bool.false_eq_true, if_false, this, mergeLevel, if_true]
      rw [mergeRepeated_flatMap]
      simp only [show ¬ (2 = 1) by decide, if_false]
      rw [mergeRepeated_flatMap]
      simp

theorem fieldsOf_encodeYolo (ls : List Level) :
    FieldsOf (ls.map fun l => (1, .len (encodeLevel l))) (encodeYolo ls) := by
  induction ls with
  | nil => exact FieldsOf.nil
  | cons l ls ih => exact ih.cons 1 (by decide) (encodeLevel l)

theorem mergeYolo_map (ls : List Level) : ∀ acc,
    mergeYolo (ls.map fun l => (1, .len (encodeLevel l))) acc = some (acc ++ ls) := by
  induction ls with
  | nil => intro acc; simp [mergeYolo]
  | cons l ls ih =>
    intro acc
    simp only [List.map_cons, mergeYolo, if_true, decodeLevel_encodeLevel]
    rw [ih]
    simp

theorem decodeYolo_encodeYolo (ls : List Level) : decodeYolo (encodeYolo ls) = some ls := by
  unfold decodeYolo
  rw [(fieldsOf_encodeYolo ls).decode]
  simp [mergeYolo_map]

theorem decodeNode_encodeNode (m : NodeSchema) : decodeNode (encodeNode m) = some m := by
  obtain ⟨i, k, v⟩ := m
  unfold decodeNode encodeNode encodeOptLen
  cases v with
  | none =>
    have := ((FieldsOf.nil.cons 2 (by decide) k).cons 1 (by decide) i).decode
    simp only [List.append_nil] at this
    simp [this, mergeNode]
  | some v =>
    have := (((FieldsOf.nil.cons 3 (by decide) v).cons 2 (by decide) k).cons 1 (by decide) i).decode
    simp only [List.append_nil] at this
    simp [this, mergeNode]

theorem pairUp_flatMap (cs : List Child) :
    pairUp (cs.flatMap fun c => [c.seq, c.offset]) = some cs := by
  induction cs with
  | nil => rfl
  | cons c cs ih => simp [pairUp, ih]

theorem levelToNode_toLevel (n : Node) : levelToNode (toLevel n) = some n := by
  simp [levelToNode, toLevel, pairUp_flatMap]

end Hyperbee
