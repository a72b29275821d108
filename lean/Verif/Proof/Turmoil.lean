import Verif.Proof.Log
import Verif.Proof.Honest
import Verif.Proof.SubTrouble
import Verif.SpecSub
/-!
# Calls that overlap while things go wrong: lemmas
-/

namespace Hyperbee

/-! ## What the calls append -/

/-- The call on the database that a call through a sub-database makes; traversals aside. -/
def Prefixed.onto (p : Prefixed) : Cmd → Cmd
  | .get k => .get (p.withKeyPrefix k)
  | .put k v => .put (p.withKeyPrefix k) v
  | .putCas k v cas => .putCas (p.withKeyPrefix k) v cas
  | .del k => .del (p.withKeyPrefix k)
  | .delCas k cas => .delCas (p.withKeyPrefix k) cas
  | c => c

theorem subExec_onto (p : Prefixed) {c : Cmd} (hc : ∀ b rs, c ≠ .traverse b rs) :
    Prog.subExec p c = Prog.exec (p.onto c) := by
  cases c with
  | traverse b rs => exact absurd rfl (hc b rs)
  | _ => rfl

theorem effect_onto (p : Prefixed) (c : Cmd) (r : Reply) : effect (p.onto c) r = effectVia (some p, c) r := by
  cases c with
  | put k v => cases r <;> rfl
  | putCas k v cas =>
    cases r with
    | putCas o q => cases q <;> rfl
    | _ => rfl
  | del k =>
    cases r with
    | del o => cases o <;> rfl
    | _ => rfl
  | delCas k cas =>
    cases r with
    | delCas o =>
      rcases o with _ | ⟨b, q⟩
      · rfl
      · cases b <;> rfl
    | _ => rfl
  | _ => rfl

theorem header_onto (p : Prefixed) (c : Cmd) : (p.onto c).header = c.header := by
  cases c <;> rfl

theorem scribe_execVia (L : Nat) (x : Option Prefixed × Cmd) :
    Scribe L (effectVia x) Reply.block Prog.fails x.2.header (Prog.execVia x) 0 := by
  obtain ⟨p, c⟩ := x
  cases p with
  | none =>
    have : effectVia (none, c) = effect c := by
      funext r
      show Option.map (Write.via none) (effect c r) = effect c r
      cases effect c r <;> rfl
    rw [this]
    exact scribe_exec L c
  | some p =>
    show Scribe L _ _ _ c.header (Prog.subExec p c) 0
    by_cases hc : ∀ b rs, c ≠ .traverse b rs
    · rw [subExec_onto p hc, ← header_onto p c, show effectVia (some p, c) = effect (p.onto c) from
        funext fun r => (effect_onto p c r).symm]
      exact scribe_exec L _
    · simp only [ne_eq, not_forall, Classical.not_not] at hc
      obtain ⟨b, rs, rfl⟩ := hc
      exact (((noApp_subTraverse p b rs).quiet L 0).imp fun _ _ _ _ => rfl).scribe

/-! ## What the calls report -/

theorem Candid.trouble {F : List Bytes} {x : Atom β} {s : St} (h : Candid F s) {t : Trouble} {m : M β}
    (ht : x.trouble t = some m) (hF : (m s).2.core <+: F) : x.says F (m s).1 ∧ Candid F (m s).2 := by
  cases t with
  | read f =>
    obtain ⟨r, hr, rfl⟩ := Option.map_eq_some_iff.mp ht
    refine ⟨?_, h⟩
    clear ht hF
    revert r
    induction x with
    | coreFetch q =>
      intro r hr e he
      cases hr
      have he : f.result = .ok (some e) := he
      cases f <;> cases he
    | under a md x ih => exact ih
    | _ => exact fun r hr => by cases hr
  | append l =>
    have ht : x.lose l = some m := ht
    induction x with
    | coreAppend b =>
      cases l with
      | refused => cases ht; exact ⟨trivial, h⟩
      | stored =>
        cases ht
        exact ⟨trivial, (h.step (.coreAppend b) trivial hF).2⟩
    | under a md x ih => exact ih hF ht ht
    | _ => cases ht
  | dropped => cases ht

theorem Prog.nextTroubled_step (o : Option Trouble) (x : Atom β) (k : Except Err β → Prog α) (s : St) :
    Prog.nextTroubled o (.step x k) s = if o = some .dropped then (.step x k, s)
      else match o.bind x.trouble with
        | some m => (k (m s).1, (m s).2)
        | none => (k (x.run s).1, (x.run s).2) := rfl

theorem Prog.nextTroubled_grows (o : Option Trouble) (p : Prog α) (s : St) : s.core <+: (p.nextTroubled o s).2.core := by
  cases p with
  | pure a => exact List.prefix_refl _
  | throw e => exact List.prefix_refl _
  | step x k =>
    rw [Prog.nextTroubled_step]
    split
    · exact List.prefix_refl _
    · split
      · next m hm =>
        obtain ⟨t, rfl, ht⟩ := Option.bind_eq_some_iff.mp hm
        have := Atom.outcome_trouble (lost := True) s ht fun _ => trivial
        show s.core <+: (m s).2.core
        cases hb : x.block with
        | none => rw [this.quiet hb]; exact List.prefix_refl _
        | some b =>
          rcases this.block b hb with ⟨_, _, e⟩ | ⟨_, _, e⟩ | ⟨_, _, e⟩ <;> rw [e] <;> simp
      · exact (x.grows s).1

theorem Hon.nextTroubled {F : List Bytes} {Q : α → Prop} {p : Prog α} (h : Hon F Q p) {s : St} (hs : Candid F s)
    {o : Option Trouble} (hF : (p.nextTroubled o s).2.core <+: F) :
    Hon F Q (p.nextTroubled o s).1 ∧ Candid F (p.nextTroubled o s).2 := by
  cases p with
  | pure a => exact ⟨h, hs⟩
  | throw e => exact ⟨h, hs⟩
  | step x k =>
    rw [Prog.nextTroubled_step] at hF ⊢
    split
    · exact ⟨h, hs⟩
    · next hd =>
      rw [if_neg hd] at hF
      split
      · next m hm =>
        rw [hm] at hF
        obtain ⟨t, rfl, ht⟩ := Option.bind_eq_some_iff.mp hm
        have := hs.trouble ht hF
        exact ⟨h.2 _ this.1, this.2⟩
      · next hm =>
        rw [hm] at hF
        have := hs.step x h.1 hF
        exact ⟨h.2 _ this.1, this.2⟩

theorem turmoil_grows (sched : List (Nat × Option Trouble)) : ∀ (ps : List (Nat × Prog α)) (w : World),
    w.core <+: (World.turmoil sched ps w).2.core := by
  induction sched with
  | nil => intro ps w; exact List.prefix_refl _
  | cons x xs ih =>
    intro ps w
    obtain ⟨i, o⟩ := x
    unfold World.turmoil
    split
    · exact ih _ _
    · next h p _ => exact (Prog.nextTroubled_grows o p (w.at h)).trans (ih _ (w.set h (p.nextTroubled o (w.at h)).2))

theorem turmoil_length (sched : List (Nat × Option Trouble)) : ∀ (ps : List (Nat × Prog α)) (w : World),
    (World.turmoil sched ps w).1.length = ps.length := by
  induction sched with
  | nil => exact fun _ _ => rfl
  | cons x xs ih =>
    intro ps w
    obtain ⟨i, o⟩ := x
    unfold World.turmoil
    split
    · exact ih ps w
    · rw [ih, List.length_set]

theorem Hon.turmoil {F : List Bytes} {Q : Nat → α → Prop} (sched : List (Nat × Option Trouble)) :
    ∀ (ps : List (Nat × Prog α)) (w : World), (∀ i h p, ps[i]? = some (h, p) → Hon F (Q i) p) → w.Candid F →
    (World.turmoil sched ps w).2.core <+: F →
    ∀ i h p, (World.turmoil sched ps w).1[i]? = some (h, p) → Hon F (Q i) p := by
  induction sched with
  | nil => intro ps w h _ _; exact h
  | cons x xs ih =>
    intro ps w h hw hF
    obtain ⟨j, o⟩ := x
    unfold World.turmoil at hF ⊢
    split
    · next hj => rw [hj] at hF; exact ih ps w h hw hF
    · next hd p hj =>
      rw [hj] at hF
      dsimp only at hF
      have h1 := (h j hd p hj).nextTroubled (hw hd) (o := o) ((turmoil_grows xs _ _).trans hF)
      refine ih _ _ (fun i h' q hq => ?_) (hw.set h1.2) hF
      rw [List.getElem?_set] at hq
      split at hq
      · next hij =>
        split at hq
        · cases hq; subst hij; exact h1.1
        · cases hq
      · exact h i h' q hq

/-- What a traversal of a sub-database may yield. -/
def Stripped (F : List Bytes) (p : Prefixed) (conf : TraverseConfig) (e : KeyValueData) : Prop :=
  ∃ k, Told F e.seq k e.value ∧ (p.boundedConf conf).inBounds k = true ∧ p.len ≤ k.length ∧ e.key = k.drop p.len

theorem hon_driveStrip {F : List Bytes} {p : Prefixed} {conf : TraverseConfig} (rs : List Bool) : ∀ fs : List Frame,
    (∀ f ∈ fs, f.config = p.boundedConf conf) →
    Hon F (fun r => ∀ e, .ok e ∈ r.1 → Stripped F p conf e) (Prog.drive (Prog.strip p) rs fs) := by
  induction rs with
  | nil => intro fs _ e h; cases h
  | cons r rs ih =>
    intro fs hc
    unfold Prog.drive
    refine (hon_poll r fs hc).bind fun x hx => ?_
    obtain ⟨q, gs⟩ := x
    cases q with
    | pending w a => exact ih gs hx.2
    | ready item w =>
      cases item with
      | none => intro e h; cases h
      | some it =>
        obtain ⟨res, a⟩ := it
        refine Hon.bind (Q := fun y => ∀ e, y = .ok e → Stripped F p conf e) ?_ fun y hy => (ih gs hx.2).bind fun z hz => ?_
        · cases res with
          | error e => intro e' he; cases he
          | ok e =>
            show Hon F _ (if p.pre.length + p.sep.length ≤ e.key.length then _ else _)
            split
            · next hle =>
              intro e' he
              cases he
              obtain ⟨h1, h2⟩ := hx.1 e a w rfl
              exact ⟨e.key, h1, h2, hle, rfl⟩
            · trivial
        · intro e h
          rcases List.mem_cons.mp h with h | h
          · exact hy e h.symm
          · exact hz e h

/-- What a reply may say about entries. -/
def CandidlyVia (F : List Bytes) (x : Option Prefixed × Cmd) (r : Reply) : Prop :=
  match x.1 with
  | none => Candidly F x.2 r
  | some p => (∀ q v, r = .got (some (q, v)) → ∃ k, Told F q k v) ∧
      ∀ b rs conf xs fin e, x.2 = .traverse b rs → b.build = .ok conf → r = .items xs fin → .ok e ∈ xs → Stripped F p conf e

theorem hon_execVia (F : List Bytes) (x : Option Prefixed × Cmd) : Hon F (CandidlyVia F x) (Prog.execVia x) := by
  obtain ⟨p, c⟩ := x
  cases p with
  | none => exact hon_exec F c
  | some p =>
    show Hon F _ (Prog.subExec p c)
    by_cases hc : ∀ b rs, c ≠ .traverse b rs
    · rw [subExec_onto p hc]
      refine (hon_exec F (p.onto c)).imp fun r hr => ⟨fun q v h => ?_, fun b rs conf xs fin e h => absurd h (hc b rs)⟩
      subst h
      exact hr
    · simp only [ne_eq, not_forall, Classical.not_not] at hc
      obtain ⟨b, rs, rfl⟩ := hc
      show Hon F _ (Prog.replyOf _ (Prog.subTraverse p b rs))
      unfold Prog.subTraverse
      cases hb : b.build with
      | error e => exact ⟨fun q v h => (by cases h), fun _ _ _ _ _ _ _ _ h => by cases h⟩
      | ok conf =>
        dsimp only
        refine Hon.replyOf (Q := fun r => ∀ e, .ok e ∈ r.1 → Stripped F p conf e) ?_
          (fun r hr => ⟨fun q v h => (by cases h), fun b' rs' conf' xs fin e hc hb' h he => ?_⟩)
          fun e => ⟨fun q v h => (by cases h), fun _ _ _ _ _ _ _ _ h => by cases h⟩
        · exact (hon_traverse _).bind fun fs hfs => (hon_driveStrip rs fs hfs).bind fun y hy => hy
        · cases hc
          cases h
          rw [hb] at hb'
          cases hb'
          exact hr e he

end Hyperbee
