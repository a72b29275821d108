import Verif.Proof.Damage
import Verif.Props.Corrupt
/-!
# Writing to a core this library did not write

Property C82.  It is false: see `damaged_put_fails` and `damaged_del_fails`.  What does hold is that
an insertion needs no B-tree to be safe: that lookups are, and that no node names the next block.
-/

namespace Hyperbee

/-! ## The claim is false -/

/-- Cores on which an insertion panics (where the lookup of the same key ends well), or never ends:
the root has a child in the block that the insertion is about to write. -/
theorem damaged_put_fails :
    ((exec (.get [5]) (St.open [encodeHeader ⟨PROTOCOL, none⟩, forged [⟨[1], [2, 7, 1, 1]⟩, ⟨[1], []⟩]])).1 = .got none ∧
      (exec (.put [5] none) (St.open [encodeHeader ⟨PROTOCOL, none⟩, forged [⟨[1], [2, 7, 1, 1]⟩, ⟨[1], []⟩]])).1 =
        .error (.panic "blocks.rs:170 nodes[old_offset]")) ∧
    (exec (.put [5] none) (St.open [encodeHeader ⟨PROTOCOL, none⟩, forged [⟨[1], [2, 1, 1, 1]⟩, ⟨[1], []⟩]])).1 =
      .error .diverge := by
  decide +kernel

/-- Such a child may also be taken for a node of the new block: the leaf that was written for `[5]`
becomes the left child of the root too. -/
theorem damaged_put_adopts :
    let s := (exec (.put [5] none) (St.open [encodeHeader ⟨PROTOCOL, none⟩, forged [⟨[1], [2, 0, 1, 1]⟩, ⟨[1], []⟩]])).2
    (wireBlock s.core 2).map Prod.snd = some [⟨[1], [2, 1, 2, 2]⟩, ⟨[1, 2], []⟩, ⟨[1, 2], []⟩] := by
  decide +kernel

/-- Cores on which a deletion panics, or never ends: leaves without keys; a node with a single child;
a node with too many children; a node with the same child twice. -/
theorem damaged_del_fails :
    (exec (.del [1]) (St.open [encodeHeader ⟨PROTOCOL, none⟩, forged [⟨[1], [1, 1, 1, 2]⟩, ⟨[], []⟩, ⟨[], []⟩]])).1 =
      .error (.panic "del.rs:62 keys.pop()") ∧
    (exec (.del [1]) (St.open [encodeHeader ⟨PROTOCOL, none⟩, forged [⟨[], [1, 1]⟩, ⟨[1], []⟩]])).1 =
      .error (.panic "del.rs:355 this should never happen") ∧
    (exec (.del [1]) (St.open [encodeHeader ⟨PROTOCOL, none⟩, forged [⟨[], [1, 1, 1, 2]⟩, ⟨[1], []⟩, ⟨[1], []⟩]])).1 =
      .error (.panic "del.rs:256 keys.remove") ∧
    (exec (.del [1]) (St.open [encodeHeader ⟨PROTOCOL, none⟩, forged [⟨[1], [1, 1, 1, 1]⟩, ⟨[1], []⟩]])).1 =
      .error .diverge := by
  decide +kernel

/-- C82 is false, of insertions and of deletions. -/
theorem damaged_write_false :
    (¬ ∀ (core : List Bytes) (k : Bytes) (v : Option Bytes), ∀ site, (exec (.put k v) (St.open core)).1 ≠ .error (.panic site)) ∧
    ¬ ∀ (core : List Bytes) (k : Bytes), ∀ site, (exec (.del k) (St.open core)).1 ≠ .error (.panic site) :=
  ⟨fun h => h _ _ _ _ damaged_put_fails.1.2, fun h => h _ _ _ damaged_del_fails.1⟩

/-! ## What a writer can count on -/

/-- C82 for insertions, on a core that has a tree.  Missing from the claim: on a core with one of
the five defects the call may fail in other ways; and this is the first write of the handle. -/
theorem damaged_putCas_partial (core : List Bytes) (h1 : ¬ OddChildren core) (h2 : ¬ NoSuchNode core) (h3 : ¬ TooFewChildren core)
    (h4 : ¬ CyclicRefs core) (h5 : ¬ NamesNext core) (hl : 2 ≤ core.length) (ρ : Nat → Bool) (cs : List Cmd)
    (hcs : ∀ c ∈ cs, c.readsOnly = true) (k : Bytes) (v : Option Bytes) (cas : Option KeyValueData → KeyValueData → Bool) :
    let out := exec (.putCas k v cas) (reader core ρ cs)
    (∃ old, out.1 = .putCas old none ∧ out.2.core = core ∧ ∃ x, cas x ⟨core.length, k, v⟩ = false) ∨
    (∃ old ns, out.1 = .putCas old (some core.length) ∧ out.2.core = core ++ [encodeBlock k v ns]) ∨
    (out.1 = .error .decode ∧ out.2.core = core) ∨ ∃ q, out.1 = .error (.noBlockAtSeq q) ∧ out.2.core = core := by
  obtain ⟨hc, hcore⟩ := reader_clean core ρ hcs
  have hio := (reader_browsed hcs (Clean.open core ⟨ρ, true⟩)).io
  have hp := put_polite hc (by rw [hcore]; exact ⟨h1, h2, h3, h4, h5⟩) (by rw [hcore]; exact hl)
    (by unfold reader; rw [hio]) k v cas
  rw [hcore] at hp
  simp only [exec, replyOf]
  unfold Polite at hp
  cases hg : putCompareAndSwap k v cas (reader core ρ cs) with
  | mk r s' =>
    rw [hg] at hp
    cases r with
    | ok p =>
      obtain ⟨old, new⟩ := p
      rcases hp with ⟨e, hc⟩ | ⟨e, ns, hc⟩
      · exact .inl ⟨old, by simp only at e ⊢; rw [e], hc⟩
      · exact .inr (.inl ⟨old, ns, by simp only at e ⊢; rw [e], hc⟩)
    | error e =>
      obtain ⟨rfl | ⟨q, rfl⟩, hc⟩ := hp
      · exact .inr (.inr (.inl ⟨rfl, hc.trans hcore⟩))
      · exact .inr (.inr (.inr ⟨q, rfl, hc.trans hcore⟩))

theorem put_of_putCas {k : Bytes} {v : Option Bytes} {s s' : St} {old : Option Nat} {r : Reply}
    (h : exec (.putCas k v fun _ _ => true) s = (r, s')) :
    (∀ n, r = .putCas old (some n) → exec (.put k v) s = (.put old n, s')) ∧ ∀ e, r = .error e → exec (.put k v) s = (.error e, s') := by
  simp only [exec, replyOf] at h ⊢
  unfold put
  cases hg : putCompareAndSwap k v (fun _ _ => true) s with
  | mk x t =>
    rw [hg] at h
    rw [bind_run, hg]
    cases x with
    | error e =>
      simp only [Prod.mk.injEq] at h
      obtain ⟨rfl, rfl⟩ := h
      exact ⟨fun n hn => (by cases hn), fun e' he => (by cases he; rfl)⟩
    | ok p =>
      simp only [Prod.mk.injEq] at h
      obtain ⟨rfl, rfl⟩ := h
      refine ⟨fun n hn => ?_, fun e' he => (by cases he)⟩
      obtain ⟨o, n'⟩ := p
      simp only [Reply.putCas.injEq] at hn
      obtain ⟨rfl, rfl⟩ := hn
      rfl

/-- The same for `put`, which is never refused. -/
theorem damaged_put_partial (core : List Bytes) (h1 : ¬ OddChildren core) (h2 : ¬ NoSuchNode core) (h3 : ¬ TooFewChildren core)
    (h4 : ¬ CyclicRefs core) (h5 : ¬ NamesNext core) (hl : 2 ≤ core.length) (ρ : Nat → Bool) (cs : List Cmd)
    (hcs : ∀ c ∈ cs, c.readsOnly = true) (k : Bytes) (v : Option Bytes) :
    let out := exec (.put k v) (reader core ρ cs)
    (∃ old ns, out.1 = .put old core.length ∧ out.2.core = core ++ [encodeBlock k v ns]) ∨
    (out.1 = .error .decode ∧ out.2.core = core) ∨ ∃ q, out.1 = .error (.noBlockAtSeq q) ∧ out.2.core = core := by
  have h := damaged_putCas_partial core h1 h2 h3 h4 h5 hl ρ cs hcs k v (fun _ _ => true)
  cases hx : exec (.putCas k v fun _ _ => true) (reader core ρ cs) with
  | mk r s' =>
    rw [hx] at h
    rcases h with ⟨_, _, _, _, h⟩ | ⟨old, ns, h, h'⟩ | ⟨h, h'⟩ | ⟨q, h, h'⟩
    · cases h
    · exact .inl ⟨old, ns, by rw [(put_of_putCas hx).1 _ h], by rw [(put_of_putCas hx).1 _ h]; exact h'⟩
    · have := (put_of_putCas (old := none) hx).2 _ h
      exact .inr (.inl ⟨by rw [this], by rw [this]; exact h'⟩)
    · have := (put_of_putCas (old := none) hx).2 _ h
      exact .inr (.inr ⟨q, by rw [this], by rw [this]; exact h'⟩)

/-- On a core without a tree an insertion always works, whatever the one block holds. -/
theorem damaged_put_first (core : List Bytes) (hl : core.length ≤ 1) (ρ : Nat → Bool) (cs : List Cmd)
    (hcs : ∀ c ∈ cs, c.readsOnly = true) (k : Bytes) (v : Option Bytes) :
    let out := exec (.put k v) (reader core ρ cs)
    ∃ old ns b, (core = [] ∨ core = [b]) ∧ out.1 = .put old 1 ∧ out.2.core = [b, encodeBlock k v ns] := by
  obtain ⟨hc, hcore⟩ := reader_clean core ρ hcs
  have hio := (reader_browsed hcs (Clean.open core ⟨ρ, true⟩)).io
  obtain ⟨p, s', hp, hw⟩ := put_empty_polite (s := reader core ρ cs) (by rw [hcore]; exact hl) (by unfold reader; rw [hio])
    k v (fun _ _ => true)
  have hready : ∃ b, (reader core ρ cs).ready.core = [b] ∧ (core = [] ∨ core = [b]) := by
    unfold St.ready
    cases core with
    | nil => exact ⟨headerBlock, by simp [hcore, St.withHeader], .inl rfl⟩
    | cons b bs =>
      have : bs = [] := List.length_eq_zero_iff.mp (by rw [List.length_cons] at hl; omega)
      subst this
      exact ⟨b, by simp [hcore], .inr rfl⟩
  obtain ⟨b, hb, hcb⟩ := hready
  rw [hb] at hw
  obtain ⟨old, new⟩ := p
  rcases hw with ⟨_, _, x, hx⟩ | ⟨hn, ns, hs'⟩
  · cases hx
  · simp only [List.length_singleton] at hn
    have he : exec (.putCas k v fun _ _ => true) (reader core ρ cs) = (.putCas old (some 1), s') := by
      simp only [exec, replyOf, hp, hn]
    refine ⟨old, ns, b, hcb, ?_, ?_⟩
    · rw [(put_of_putCas he).1 1 rfl]
    · rw [(put_of_putCas he).1 1 rfl]; exact hs'

/-- C82 for deletions that find nothing: such a call ends as the lookup does and writes nothing, on
any core.  Missing from the claim: deletions that find the key, see `damaged_del_fails`. -/
theorem damaged_del_partial (core : List Bytes) (ρ : Nat → Bool) (cs : List Cmd) (hcs : ∀ c ∈ cs, c.readsOnly = true) (k : Bytes)
    (hn : ∀ x, (exec (.get k) (reader core ρ cs)).1 ≠ .got (some x)) :
    let out := exec (.del k) (reader core ρ cs)
    out.2.core = core ∧ ((exec (.get k) (reader core ρ cs)).1 = .got none ∧ out.1 = .del none ∨
      ∃ e, (exec (.get k) (reader core ρ cs)).1 = .error e ∧ out.1 = .error e ∧ Blame core e) := by
  obtain ⟨hc, hcore⟩ := reader_clean core ρ hcs
  have hf := get_fair hc k
  obtain ⟨d1, d2⟩ := del_of_get (s := reader core ρ cs) (k := k)
  unfold Fair at hf
  simp only [exec, replyOf] at hn ⊢
  cases hg : get k (reader core ρ cs) with
  | mk r s' =>
    rw [hg] at hf hn d1 d2
    cases r with
    | ok a =>
      cases a with
      | some x => exact (hn x rfl).elim
      | none =>
        obtain ⟨g1, g2⟩ := d2 rfl
        cases hd : del k (reader core ρ cs) with
        | mk r2 s2 =>
          rw [hd] at g1 g2
          simp only at g1 g2
          subst g1
          subst g2
          exact ⟨hf.1.core.trans hcore, .inl ⟨rfl, rfl⟩⟩
    | error e =>
      obtain ⟨hl, hb⟩ := hf
      obtain ⟨g1, g2⟩ := d1 e rfl (by
        intro he
        subst he
        generalize hx : Err.panic "tree.rs:99 path.last()" = e at hb
        cases hb <;> simp at hx)
      cases hd : del k (reader core ρ cs) with
      | mk r2 s2 =>
        rw [hd] at g1 g2
        simp only at g1 g2
        subst g1
        subst g2
        exact ⟨hl.core.trans hcore, .inr ⟨e, rfl, rfl, hcore ▸ hb⟩⟩

/-- The cores this library writes name no block that comes later, nor do they after undecodable
blocks have been put in the place of some. -/
theorem written_names_none {s : St} (hs : Reachable s) {core : List Bytes} (hl : core.length = s.core.length)
    (hd : ∀ q, wireBlock core q = none ∨ (q ≠ 0 ∧ wireBlock core q = wireBlock s.core q)) : ¬ NamesNext core := by
  have hlt : ∀ {c : List Bytes} {q m ls}, wireBlock c q = some (m, ls) → q < c.length := by
    intro c q m ls h
    apply Classical.byContradiction
    intro hc
    unfold wireBlock at h
    rw [List.getElem?_eq_none (by omega)] at h
    cases h
  rintro ⟨x, y, ⟨m, ls, l, j, w, hl', ha, hb⟩, hy⟩
  rcases hd x.1 with h' | ⟨h0, h'⟩
  · rw [h'] at w; cases w
  · rw [h'] at w
    obtain ⟨m', ls', w1, _, w3⟩ := hs.sound (by omega) (hlt w)
    rw [w] at w1
    cases w1
    obtain ⟨refs, hr, hall⟩ := w3.children _ l hl'
    have hget : ∀ (refs : List (Nat × Nat)) (j p o : Nat), (refs.flatMap fun r => [r.1, r.2])[2 * j]? = some p →
        (refs.flatMap fun r => [r.1, r.2])[2 * j + 1]? = some o → (p, o) ∈ refs := by
      intro refs
      induction refs with
      | nil => intro j p o h; simp at h
      | cons c cs ih =>
        intro j p o ha hb
        cases j with
        | zero => simp at ha hb; subst ha; subst hb; simp
        | succ j =>
          rw [show 2 * (j + 1) = 2 * j + 2 by omega] at ha hb
          rw [show 2 * j + 2 + 1 = 2 * j + 1 + 2 by omega] at hb
          exact List.mem_cons_of_mem _ (ih j p o (by simpa using ha) (by simpa using hb))
    rw [hr] at ha hb
    obtain ⟨_, m'', ls'', w'', _⟩ := hall _ (hget refs j _ _ ha hb)
    have := hlt w''
    omega

/-- A database of nine keys with the third block overwritten by garbage: insertions that need the
block report it, the others go through. -/
example : let core := (runSt (ascending.take 9) St.init).core.set 3 [255]
    (¬ OddChildren core ∧ ¬ NoSuchNode core ∧ ¬ TooFewChildren core ∧ ¬ CyclicRefs core) ∧ ¬ NamesNext core ∧
    (ascending.take 9).map (fun c => match (exec c (reader core (fun _ => true) [])).1 with
        | .error .decode => 1
        | .put (some _) 10 => 2
        | _ => 0) = [2, 2, 1, 1, 2, 2, 2, 2, 2] := by
  have hd : ∀ q, wireBlock ((runSt (ascending.take 9) St.init).core.set 3 [255]) q = none ∨
      (q ≠ 0 ∧ wireBlock ((runSt (ascending.take 9) St.init).core.set 3 [255]) q = wireBlock (runSt (ascending.take 9) St.init).core q) := by
    intro q
    by_cases h0 : q = 0
    · subst h0; left; decide +kernel
    · by_cases h3 : q = 3
      · subst h3; left; decide +kernel
      · right
        refine ⟨h0, ?_⟩
        unfold wireBlock
        rw [List.getElem?_set_ne (by omega)]
  exact ⟨written_sound ⟨ascending.take 9, rfl⟩ (by decide +kernel) (by simp) hd,
    written_names_none ⟨ascending.take 9, rfl⟩ (by simp) hd, by decide +kernel⟩

/-- No B-tree at all: a root without keys whose one child is an empty leaf. -/
def stunted : List Bytes := [encodeHeader ⟨PROTOCOL, none⟩, forged [⟨[], [1, 1]⟩, ⟨[], []⟩]]

example : ¬ OddChildren stunted ∧ ¬ NoSuchNode stunted ∧ ¬ TooFewChildren stunted ∧ ¬ CyclicRefs stunted ∧ ¬ NamesNext stunted ∧
    (exec (.put [5] none) (reader stunted (fun _ => true) [])).1 = .put none 2 := by
  have hw : ∀ q m ls, wireBlock stunted q = some (m, ls) → q = 1 ∧ ls = [⟨[], [1, 1]⟩, ⟨[], []⟩] := by
    intro q m ls h
    have h0 : (wireBlock stunted 0).map Prod.snd = none := by decide +kernel
    have h1 : (wireBlock stunted 1).map Prod.snd = some [⟨[], [1, 1]⟩, ⟨[], []⟩] := by decide +kernel
    match q with
    | 0 => rw [h] at h0; cases h0
    | 1 => rw [h] at h1; simp only [Option.map_some, Option.some.injEq] at h1; exact ⟨rfl, h1⟩
    | q + 2 =>
      unfold wireBlock at h
      rw [List.getElem?_eq_none (by simp [stunted])] at h
      cases h
  have href : ∀ x y, RefersTo stunted x y → x = (1, 0) ∧ y = (1, 1) := by
    rintro ⟨q, i⟩ ⟨p, o⟩ ⟨m, ls, l, j, w, hl, ha, hb⟩
    obtain ⟨rfl, rfl⟩ := hw _ _ _ w
    match i, j with
    | 0, 0 =>
      simp only [List.getElem?_cons_zero, Option.some.injEq] at hl
      subst hl
      simp at ha hb
      rw [← ha, ← hb]; exact ⟨rfl, rfl⟩
    | 0, j + 1 =>
      simp only [List.getElem?_cons_zero, Option.some.injEq] at hl
      subst hl
      rw [List.getElem?_eq_none (by simp; omega)] at ha
      cases ha
    | 1, j =>
      simp at hl
      subst hl
      simp at ha
    | i + 2, _ => simp at hl
  refine ⟨?_, ?_, ?_, ?_, ?_, by decide +kernel⟩
  · rintro ⟨q, m, ls, l, w, hl, ho⟩
    obtain ⟨_, rfl⟩ := hw _ _ _ w
    simp only [List.mem_cons, List.not_mem_nil, or_false] at hl
    rcases hl with rfl | rfl <;> simp at ho
  · rintro (⟨m, w⟩ | ⟨x, y, m, ls, hr, w, hle⟩)
    · have := (hw _ _ _ w).2; simp at this
    · obtain ⟨_, rfl⟩ := href _ _ hr
      obtain ⟨_, rfl⟩ := hw _ _ _ w
      simp at hle
  · rintro ⟨q, m, ls, l, w, hl, hne, hlt⟩
    obtain ⟨_, rfl⟩ := hw _ _ _ w
    simp only [List.mem_cons, List.not_mem_nil, or_false] at hl
    rcases hl with rfl | rfl <;> simp at hne hlt
  · rintro ⟨x, hx⟩
    have : ∀ {x y}, Relation.TransGen (RefersTo stunted) x y → x = (1, 0) ∧ y = (1, 1) := by
      intro x y h
      induction h with
      | single h => exact href _ _ h
      | tail _ h ih => exact ⟨ih.1, (href _ _ h).2⟩
    obtain ⟨e1, e2⟩ := this hx
    rw [e1] at e2
    cases e2
  · rintro ⟨x, y, hr, hy⟩
    obtain ⟨_, rfl⟩ := href _ _ hr
    simp [stunted] at hy

end Hyperbee
