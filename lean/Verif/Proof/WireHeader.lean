import Verif.Proof.Wire
/-!
# What the decoder of the header accepts
-/

namespace Hyperbee
open Wire

theorem validUtf8_iff {b : Bytes} : validUtf8 b = true ↔ IsUtf8 b := by
  unfold validUtf8 String.fromUTF8? IsUtf8
  constructor
  · intro h
    split at h
    · rename_i hv
      obtain ⟨m, hm⟩ := hv
      refine ⟨m, ?_⟩
      have := congrArg (fun x => x.data.toList) hm
      simpa [List.utf8Encode] using this
    · cases h
  · rintro ⟨cs, rfl⟩
    rw [dif_pos]
    · rfl
    · refine ⟨cs, ?_⟩
      unfold List.utf8Encode
      rw [ByteArray.ext_iff]
      simp

theorem says_nil {tag : Nat} {v : Option Bytes} : Says tag [] v ↔ v = none := by
  unfold Says AllBytes lastOf
  cases v <;> simp

theorem says_append {tag : Nat} : ∀ {fs gs : List (Nat × Field)} {v : Option Bytes},
    Says tag (fs ++ gs) v ↔ ∃ a b, Says tag fs a ∧ Says tag gs b ∧ v = b.or a := by
  intro fs
  induction fs with
  | nil =>
    intro gs v
    simp only [List.nil_append, says_nil]
    constructor
    · intro h; exact ⟨none, v, rfl, h, by simp⟩
    · rintro ⟨a, b, rfl, h, rfl⟩; simpa using h
  | cons f fs ih =>
    intro gs v
    obtain ⟨t, f⟩ := f
    rw [List.cons_append]
    by_cases ht : t = tag
    · subst ht
      simp only [says_cons_eq, ih]
      constructor
      · rintro ⟨b, w, rfl, ⟨x, y, h1, h2, rfl⟩, rfl⟩
        exact ⟨_, y, ⟨b, x, rfl, h1, rfl⟩, h2, by cases x <;> cases y <;> rfl⟩
      · rintro ⟨_, y, ⟨b, x, rfl, h1, rfl⟩, h2, rfl⟩
        exact ⟨b, _, rfl, ⟨x, y, h1, h2, rfl⟩, by cases x <;> cases y <;> rfl⟩
    · simp only [says_cons_ne ht, ih]

theorem mergeMetadata_iff {fs : List (Nat × Field)} {m m' : Metadata} :
    mergeMetadata fs m = some m' ↔ ∃ a b, Says 1 fs a ∧ Says 2 fs b ∧
      m' = ⟨a.or m.contentFeed, b.or m.userData⟩ := by
  induction fs generalizing m with
  | nil =>
    simp only [says_nil]
    constructor
    · intro h; cases h; exact ⟨none, none, rfl, rfl, rfl⟩
    · rintro ⟨a, b, rfl, rfl, rfl⟩; rfl
  | cons f fs ih =>
    obtain ⟨t, f⟩ := f
    unfold mergeMetadata
    by_cases h1 : t = 1
    · subst h1
      rw [if_pos rfl]
      simp only [says_cons_eq, says_cons_ne (show (1 : Nat) ≠ 2 by simp)]
      constructor
      · intro h
        split at h
        · obtain ⟨a, b, h1, h2, rfl⟩ := ih.mp h
          exact ⟨_, b, ⟨_, a, rfl, h1, rfl⟩, h2, by cases a <;> rfl⟩
        · cases h
      · rintro ⟨_, b, ⟨x, a, rfl, h1, rfl⟩, h2, rfl⟩
        exact ih.mpr ⟨a, b, h1, h2, by cases a <;> rfl⟩
    · rw [if_neg h1]
      by_cases h2 : t = 2
      · subst h2
        rw [if_pos rfl]
        simp only [says_cons_eq, says_cons_ne (show (2 : Nat) ≠ 1 by simp)]
        constructor
        · intro h
          split at h
          · obtain ⟨a, b, h1, h2, rfl⟩ := ih.mp h
            exact ⟨a, _, h1, ⟨_, b, rfl, h2, rfl⟩, by cases b <;> rfl⟩
          · cases h
        · rintro ⟨a, _, h1, ⟨x, b, rfl, h2, rfl⟩, rfl⟩
          exact ih.mpr ⟨a, b, h1, h2, by cases b <;> rfl⟩
      · rw [if_neg h2, ih]
        simp only [says_cons_ne h1, says_cons_ne h2]

/-- The metadata after some more fields, with those collected from them. -/
def MetaThen (fs hs : List (Nat × Field)) (m m' : Option Metadata) : Prop :=
  MetaFields fs hs ∧ ∃ a b, Says 1 hs a ∧ Says 2 hs b ∧
    (m' = if fs.any (·.1 == 2) then some ⟨a.or (m.getD ⟨none, none⟩).contentFeed, b.or (m.getD ⟨none, none⟩).userData⟩ else m)

theorem mergeHeader64_iff {fs : List (Nat × Field)} {h h' : Header} :
    mergeHeader64 fs h = some h' ↔ ∃ p hs, Says 1 fs p ∧ (∀ b, (1, Field.len b) ∈ fs → IsUtf8 b) ∧
      MetaThen fs hs h.metadata h'.metadata ∧ h'.protocol = p.getD h.protocol := by
  induction fs generalizing h with
  | nil =>
    constructor
    · intro e
      cases e
      exact ⟨none, [], says_nil.mpr rfl, (fun _ h => by cases h), ⟨.nil, none, none, says_nil.mpr rfl, says_nil.mpr rfl, rfl⟩, rfl⟩
    · rintro ⟨p, hs, h1, _, ⟨h2, a, b, _, _, h3⟩, h4⟩
      rw [says_nil] at h1
      subst h1
      obtain ⟨p', m'⟩ := h'
      obtain ⟨p, m⟩ := h
      simp only [List.any_nil, Bool.false_eq_true, if_false] at h3
      simp only [Option.getD_none] at h4
      subst h3 h4
      rfl
  | cons f fs ih =>
    obtain ⟨t, f⟩ := f
    unfold mergeHeader64
    by_cases h1 : t = 1
    · subst h1
      rw [if_pos rfl]
      constructor
      · intro e
        split at e
        · rename_i b
          split at e
          · rename_i hv
            obtain ⟨p, hs, e1, e2, ⟨e3, e4⟩, e5⟩ := ih.mp e
            refine ⟨_, hs, says_cons_eq.mpr ⟨_, p, rfl, e1, rfl⟩, ?_, ⟨.skip (by simp) e3, e4⟩, by rw [e5]; cases p <;> rfl⟩
            intro b' hb'
            rcases List.mem_cons.mp hb' with hb' | hb'
            · cases hb'; exact validUtf8_iff.mp hv
            · exact e2 b' hb'
          · cases e
        · cases e
      · rintro ⟨_, hs, e1, e2, ⟨e3, e4⟩, e5⟩
        obtain ⟨b, p, rfl, e6, rfl⟩ := says_cons_eq.mp e1
        simp only []
        rw [if_pos (validUtf8_iff.mpr (e2 b (by simp)))]
        cases e3 with
        | skip _ e3 =>
          exact ih.mpr ⟨p, hs, e6, fun b' hb' => e2 b' (List.mem_cons_of_mem _ hb'), ⟨e3, e4⟩, by
            rw [e5]; cases p <;> rfl⟩
    · rw [if_neg h1]
      by_cases h2 : t = 2
      · subst h2
        rw [if_pos rfl]
        constructor
        · intro e
          split at e
          · rename_i b
            split at e
            · cases e
            · rename_i gs hgs
              split at e
              · cases e
              · rename_i m hm
                obtain ⟨a, b', x1, x2, rfl⟩ := mergeMetadata_iff.mp hm
                obtain ⟨p, hs, e1, e2, ⟨e3, a2, b2, e4, e4', e4''⟩, e5⟩ := ih.mp e
                refine ⟨p, gs ++ hs, (says_cons_ne (by simp)).mpr e1, ?_, ⟨.take (decodeFields64_iff.mp hgs) e3,
                  _, _, says_append.mpr ⟨a, a2, x1, e4, rfl⟩, says_append.mpr ⟨b', b2, x2, e4', rfl⟩, ?_⟩, e5⟩
                · intro b' hb'
                  rcases List.mem_cons.mp hb' with hb' | hb'
                  · cases hb'
                  · exact e2 b' hb'
                · rw [e4'']
                  simp only [List.any_cons, beq_self_eq_true, Bool.true_or, if_true, Option.getD_some]
                  split
                  · simp only [Option.or_assoc]
                  · rename_i hn
                    have : hs = [] := by
                      clear ih e e1 e2 e4 e4' e4'' e5
                      induction e3 with
                      | nil => rfl
                      | skip _ _ ih => exact ih (by simp at hn ⊢; exact hn.2)
                      | take _ _ ih => simp at hn
                    subst this
                    rw [says_nil] at e4 e4'
                    subst e4 e4'
                    rfl
          · cases e
        · rintro ⟨p, hs, e1, e2, ⟨e3, a, b, e4, e4', e4''⟩, e5⟩
          cases e3 with
          | skip e3 _ => simp at e3
          | @take b0 gs _ hs e3 e3' =>
            simp only []
            rw [decodeFields64_iff.mpr e3]
            obtain ⟨a1, a2, x1, x2, rfl⟩ := says_append.mp e4
            obtain ⟨b1, b2, y1, y2, rfl⟩ := says_append.mp e4'
            simp only []
            rw [mergeMetadata_iff.mpr ⟨a1, b1, x1, y1, rfl⟩]
            refine ih.mpr ⟨p, hs, (says_cons_ne (by simp)).mp e1, fun b' hb' => e2 b' (List.mem_cons_of_mem _ hb'),
              ⟨e3', a2, b2, x2, y2, ?_⟩, e5⟩
            rw [e4'']
            simp only [List.any_cons, beq_self_eq_true, Bool.true_or, if_true, Option.getD_some]
            split
            · simp only [Option.or_assoc]
            · rename_i hn
              have : hs = [] := by
                clear ih e1 e2 e4 e4' e4'' e5 x2 y2 e3
                induction e3' with
                | nil => rfl
                | skip _ _ ih => exact ih (by simp at hn ⊢; exact hn.2)
                | take _ _ ih => simp at hn
              subst this
              rw [says_nil] at x2 y2
              subst x2 y2
              rfl
      · rw [if_neg h2, ih]
        have hany : ((t, f) :: fs).any (·.1 == 2) = fs.any (·.1 == 2) := by simp [h2]
        constructor
        · rintro ⟨p, hs, e1, e2, ⟨e3, e4⟩, e5⟩
          refine ⟨p, hs, (says_cons_ne h1).mpr e1, ?_, ⟨.skip h2 e3, by rw [hany]; exact e4⟩, e5⟩
          intro b' hb'
          rcases List.mem_cons.mp hb' with hb' | hb'
          · cases hb'; exact absurd rfl h1
          · exact e2 b' hb'
        · rintro ⟨p, hs, e1, e2, ⟨e3, e4⟩, e5⟩
          cases e3 with
          | skip _ e3 =>
            exact ⟨p, hs, (says_cons_ne h1).mp e1, fun b' hb' => e2 b' (List.mem_cons_of_mem _ hb'),
              ⟨e3, by rw [hany] at e4; exact e4⟩, e5⟩
          | take => exact absurd rfl h2

theorem decodeHeader64_iff {bs : Bytes} {h : Header} :
    decodeHeader64 bs = some h ↔ ReadsHeader h.protocol (h.metadata.map fun m => (m.contentFeed, m.userData)) bs := by
  unfold decodeHeader64 ReadsHeader HeaderMeans
  constructor
  · intro e
    split at e
    · cases e
    · rename_i fs hf
      obtain ⟨p, hs, e1, e2, ⟨e3, a, b, e4, e4', e5⟩, e6⟩ := mergeHeader64_iff.mp e
      refine ⟨fs, decodeFields64_iff.mp hf, p, hs, e1, e6, e2, e3, ?_⟩
      rw [e5]
      split
      · rename_i hn
        split at hn
        · cases hn
        · rename_i hx
          simp only [List.any_eq_true, beq_iff_eq, not_exists, not_and] at hx
          exact hx
      · rename_i feed data hn
        split at hn
        · rename_i hx
          simp only [List.any_eq_true, beq_iff_eq] at hx
          simp only [Option.map_some, Option.getD_none, Option.or_none, Option.some.injEq, Prod.mk.injEq] at hn
          obtain ⟨rfl, rfl⟩ := hn
          exact ⟨hx, e4, e4'⟩
        · cases hn
  · rintro ⟨fs, h1, p, hs, e1, e6, e2, e3, e5⟩
    rw [decodeFields64_iff.mpr h1]
    obtain ⟨pr, md⟩ := h
    simp only at e6 e5
    cases md with
    | none =>
      simp only [Option.map_none] at e5
      have hx : fs.any (·.1 == 2) = false := by
        rw [Bool.eq_false_iff]
        simp only [ne_eq, List.any_eq_true, beq_iff_eq, not_exists, not_and]
        exact e5
      have : hs = [] := by
        clear h1 e1 e2 hx
        induction e3 with
        | nil => rfl
        | skip _ _ ih => exact ih (fun g hg => e5 g (List.mem_cons_of_mem _ hg))
        | take _ _ _ => exact absurd rfl (e5 _ (List.mem_cons_self ..))
      subst this
      exact mergeHeader64_iff.mpr ⟨p, [], e1, e2, ⟨e3, none, none, says_nil.mpr rfl, says_nil.mpr rfl, by rw [hx]; rfl⟩, e6⟩
    | some m =>
      obtain ⟨feed, data⟩ := m
      simp only [Option.map_some] at e5
      obtain ⟨hx, e4, e4'⟩ := e5
      have hx : fs.any (·.1 == 2) = true := by
        simp only [List.any_eq_true, beq_iff_eq]
        exact hx
      exact mergeHeader64_iff.mpr ⟨p, hs, e1, e2, ⟨e3, feed, data, e4, e4', by rw [hx]; simp⟩, e6⟩

end Hyperbee
