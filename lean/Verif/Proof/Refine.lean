import Verif.Model.Session
import Verif.Proof.DelTop
import Verif.Proof.Poll
/-!
# The model refines the abstract database
-/

namespace Hyperbee

/-- A configuration the builder accepts means what it says. -/
theorem build_sound {b : TraverseConfigBuilder} {conf : TraverseConfig} (h : b.build = .ok conf) :
    conf.Sound := by
  obtain ⟨mn, mi, mx, xi, rv⟩ := b
  unfold TraverseConfigBuilder.build at h
  split at h
  · rename_i hv
    cases h
    intro k
    simp only [TraverseConfig.inBounds, InRange, aboveMin_iff, belowMax_iff]
    have key : ∀ l : LimitValue, mn.getD (.infinite .negative) = l → l.cmp k = .eq → mi.getD true = true →
        (mx.getD (.infinite .positive)).cmp k = .gt ∨
          (xi.getD true = true ∧ (mx.getD (.infinite .positive)).cmp k = .eq) := by
      intro l hl he hi
      cases mx with
      | none => left; rfl
      | some mx =>
        cases mn with
        | none => subst hl; simp [LimitValue.cmp, InfiniteKeys.cmp] at he
        | some mn =>
          simp only [Option.getD_some] at hl ⊢
          subst hl
          cases mn with
          | infinite i => cases i <;> simp [LimitValue.cmp, InfiniteKeys.cmp] at he
          | finite a =>
            simp only [LimitValue.cmp, bcmp_eq_iff] at he
            subst he
            cases mx with
            | infinite i =>
              cases i with
              | positive => left; rfl
              | negative => simp [validateBuilder] at hv
            | finite e =>
              simp only [LimitValue.cmp]
              simp only [validateBuilder] at hv
              by_cases h1 : bcmp e a = .lt
              · rw [if_pos h1] at hv; simp at hv
              · rw [if_neg h1] at hv
                by_cases h2 : a = e
                · subst h2
                  right
                  rw [if_pos rfl] at hv
                  refine ⟨?_, (bcmp_eq_iff _ _).mpr rfl⟩
                  cases xi with
                  | none => rfl
                  | some x =>
                    cases x with
                    | true => rfl
                    | false =>
                      cases mi with
                      | none => simp at hv
                      | some y => cases y <;> simp at hv
                · left
                  refine Ordering.cases_ne ?_ h1
                  intro h3
                  exact h2 ((bcmp_eq_iff _ _).mp h3).symm
    cases hc : (mn.getD (.infinite .negative)).cmp k with
    | gt => simp
    | eq =>
      simp only []
      constructor
      · intro hi
        exact ⟨.inr ⟨hi, trivial⟩, key _ rfl hc hi⟩
      · rintro ⟨h1 | h1, _⟩
        · exact absurd h1 (by simp)
        · exact h1.1
    | lt =>
      simp only []
      cases hd : (mx.getD (.infinite .positive)).cmp k with
      | gt => simp
      | eq => simp
      | lt => simp
  · cases h

/-! ## Contents -/

/-- The keys of the tree, with the blocks they name, are the map. -/
def Contents (c : List Bytes) (l : List Nat) (d : Db) : Prop :=
  ∀ k q v, d.map k = some (q, v) ↔ q ∈ l ∧ keyOf c q = k ∧ valOf c q = v

theorem Contents.loc {c : List Bytes} {l : List Nat} {d : Db} (h : Contents c l d) {key : Bytes}
    {m : Option Nat} {pre post : List Nat} (hl : Loc c key l m pre post) :
    d.map key = m.map fun q => (q, valOf c q) := by
  cases m with
  | some q =>
    refine (h key q _).mpr ⟨?_, hl.hit q rfl, rfl⟩
    rw [hl.eq]; simp
  | none =>
    cases hd : d.map key with
    | none => rfl
    | some e =>
      obtain ⟨q, v⟩ := e
      obtain ⟨h1, h2, _⟩ := (h key q v).mp hd
      rw [hl.eq] at h1
      simp only [Option.toList_none, List.append_nil, List.mem_append] at h1
      rcases h1 with h1 | h1
      · have := hl.lt q h1; rw [h2] at this; exact absurd this (blt_irrefl _)
      · have := hl.gt q h1; rw [h2] at this; exact absurd this (blt_irrefl _)

theorem Contents.entry {c : List Bytes} {l : List Nat} {d : Db} (h : Contents c l d) {key : Bytes}
    {m : Option Nat} {pre post : List Nat} (hl : Loc c key l m pre post) :
    d.entry key = m.map fun q => ⟨q, keyOf c q, valOf c q⟩ := by
  unfold Db.entry
  rw [h.loc hl]
  cases m with
  | none => rfl
  | some q => simp [hl.hit q rfl]

theorem Contents.seq {c : List Bytes} {l : List Nat} {d : Db} (h : Contents c l d) {key : Bytes}
    {m : Option Nat} {pre post : List Nat} (hl : Loc c key l m pre post) :
    (d.map key).map (·.1) = m := by
  rw [h.loc hl]
  cases m <;> rfl

theorem Contents.write {c : List Bytes} {l : List Nat} {d : Db} (h : Contents c l d) {key : Bytes}
    {value : Option Bytes} {ns : List Node}
    {m : Option Nat} {pre post : List Nat} (hl : Loc c key l m pre post) (hlt : ∀ q ∈ l, q < c.length)
    (hn : d.nextSeq = c.length) :
    Contents (c ++ [encodeBlock key value ns]) (pre ++ c.length :: post) (d.write key value) := by
  have hpre : ∀ q ∈ pre, q ∈ l := by intro q hq; rw [hl.eq]; simp [hq]
  have hpost : ∀ q ∈ post, q ∈ l := by intro q hq; rw [hl.eq]; simp [hq]
  intro k q v
  simp only [Db.write, hn]
  by_cases hk : k = key
  · subst hk
    rw [if_pos rfl]
    constructor
    · intro e
      cases e
      exact ⟨by simp, keyOf_new .., valOf_new ..⟩
    · rintro ⟨h1, h2, h3⟩
      rw [List.mem_append, List.mem_cons] at h1
      rcases h1 with h1 | h1 | h1
      · rw [keyOf_append (hlt q (hpre q h1))] at h2
        have := hl.lt q h1; rw [h2] at this; exact absurd this (blt_irrefl _)
      · subst h1
        rw [valOf_new] at h3
        rw [h3]
      · rw [keyOf_append (hlt q (hpost q h1))] at h2
        have := hl.gt q h1; rw [h2] at this; exact absurd this (blt_irrefl _)
  · rw [if_neg hk, h k q v]
    constructor
    · rintro ⟨h1, h2, h3⟩
      have hq := hlt q h1
      refine ⟨?_, by rw [keyOf_append hq]; exact h2, by rw [valOf_append hq]; exact h3⟩
      rw [hl.eq] at h1
      rw [List.mem_append, List.mem_append] at h1
      rcases h1 with (h1 | h1) | h1
      · simp [h1]
      · cases m with
        | none => simp at h1
        | some x =>
          have : q = x := by simpa using h1
          subst this
          exact absurd (h2.symm.trans (hl.hit q rfl)) hk
      · simp [h1]
    · rintro ⟨h1, h2, h3⟩
      rw [List.mem_append, List.mem_cons] at h1
      rcases h1 with h1 | h1 | h1
      · have h4 := hpre q h1
        have hq := hlt q h4
        rw [keyOf_append hq] at h2; rw [valOf_append hq] at h3
        exact ⟨h4, h2, h3⟩
      · subst h1
        rw [keyOf_new] at h2
        exact absurd h2.symm hk
      · have h4 := hpost q h1
        have hq := hlt q h4
        rw [keyOf_append hq] at h2; rw [valOf_append hq] at h3
        exact ⟨h4, h2, h3⟩

theorem Contents.remove {c : List Bytes} {l : List Nat} {d : Db} (h : Contents c l d) {key : Bytes}
    {b : Bytes} {m : Option Nat} {pre post : List Nat} (hl : Loc c key l m pre post)
    (hlt : ∀ q ∈ l, q < c.length) :
    Contents (c ++ [b]) (pre ++ post) (d.remove key) := by
  have hpre : ∀ q ∈ pre, q ∈ l := by intro q hq; rw [hl.eq]; simp [hq]
  have hpost : ∀ q ∈ post, q ∈ l := by intro q hq; rw [hl.eq]; simp [hq]
  intro k q v
  simp only [Db.remove]
  by_cases hk : k = key
  · subst hk
    rw [if_pos rfl]
    constructor
    · intro e; cases e
    · rintro ⟨h1, h2, h3⟩
      rw [List.mem_append] at h1
      rcases h1 with h1 | h1
      · rw [keyOf_append (hlt q (hpre q h1))] at h2
        have := hl.lt q h1; rw [h2] at this; exact absurd this (blt_irrefl _)
      · rw [keyOf_append (hlt q (hpost q h1))] at h2
        have := hl.gt q h1; rw [h2] at this; exact absurd this (blt_irrefl _)
  · rw [if_neg hk, h k q v]
    constructor
    · rintro ⟨h1, h2, h3⟩
      have hq := hlt q h1
      refine ⟨?_, by rw [keyOf_append hq]; exact h2, by rw [valOf_append hq]; exact h3⟩
      rw [hl.eq] at h1
      rw [List.mem_append, List.mem_append] at h1
      rcases h1 with (h1 | h1) | h1
      · simp [h1]
      · cases m with
        | none => simp at h1
        | some x =>
          have : q = x := by simpa using h1
          subst this
          exact absurd (h2.symm.trans (hl.hit q rfl)) hk
      · simp [h1]
    · rintro ⟨h1, h2, h3⟩
      rw [List.mem_append] at h1
      rcases h1 with h1 | h1
      · have h4 := hpre q h1
        have hq := hlt q h4
        rw [keyOf_append hq] at h2; rw [valOf_append hq] at h3
        exact ⟨h4, h2, h3⟩
      · have h4 := hpost q h1
        have hq := hlt q h4
        rw [keyOf_append hq] at h2; rw [valOf_append hq] at h3
        exact ⟨h4, h2, h3⟩

/-! ## The invariant -/

/-- A core without a tree: nothing or only a header. -/
def Bare (c : List Bytes) (d : Db) : Prop := c.length ≤ 1 ∧ ∀ k, d.map k = none

/-- The core stores the database. -/
def Stored (c : List Bytes) (d : Db) : Prop :=
  d.version = c.length ∧ (Bare c d ∨ ∃ H t, TreeAt c H t ∧ Contents c t.flat d)

/-- The handle `s` shows the database `d`. -/
structure Holds (s : St) (d : Db) : Prop where
  wf : SWF s
  ok : s.io.appendOk = true
  ver : d.version = s.core.length
  store : Bare s.core d ∨ ∃ H t, TreeAt s.core H t ∧ Coh s (· ∈ t.refs) ∧ Contents s.core t.flat d

theorem Holds.stored {s : St} {d : Db} (h : Holds s d) : Stored s.core d := by
  refine ⟨h.ver, ?_⟩
  rcases h.store with hb | ⟨H, t, h1, _, h2⟩
  · exact .inl hb
  · exact .inr ⟨H, t, h1, h2⟩

theorem open_wf (c : List Bytes) : SWF (St.open c) := by
  refine ⟨fun _ => rfl, ?_, ?_, ?_⟩
  · intro q e h; simp [St.open] at h
  · intro r a h; simp [St.open, addrOf] at h
  · intro r r' a h; simp [St.open, addrOf] at h

theorem open_coh (c : List Bytes) (R : Child → Prop) : Coh (St.open c) R := by
  intro r _ a h; simp [St.open, addrOf] at h

theorem Stored.open {c : List Bytes} {d : Db} (h : Stored c d) : Holds (St.open c) d := by
  refine ⟨open_wf c, rfl, h.1, ?_⟩
  rcases h.2 with hb | ⟨H, t, h1, h2⟩
  · exact .inl hb
  · exact .inr ⟨H, t, h1, open_coh c _, h2⟩

theorem Holds.ext {s s' : St} {d : Db} (h : Holds s d) (e : Ext s s') : Holds s' d := by
  refine ⟨e.wf, by rw [e.io]; exact h.ok, by rw [e.core]; exact h.ver, ?_⟩
  rcases h.store with hb | ⟨H, t, h1, hc, h2⟩
  · rw [e.core]; exact .inl hb
  · exact .inr ⟨H, t, by rw [e.core]; exact h1, e.coh h.wf hc, by rw [e.core]; exact h2⟩

theorem Holds.init : Holds St.init Db.empty :=
  Stored.open ⟨rfl, .inl ⟨by simp, fun _ => rfl⟩⟩

theorem Db.nextSeq_tree {d : Db} {n : Nat} (h : d.version = n) (h2 : 1 ≤ n) : d.nextSeq = n := by
  unfold Db.nextSeq; omega

theorem Bare.nextSeq {c : List Bytes} {d : Db} (h : Bare c d) (hv : d.version = c.length) : d.nextSeq = 1 := by
  have := h.1
  unfold Db.nextSeq; omega

theorem Bare.entry {c : List Bytes} {d : Db} (h : Bare c d) (k : Bytes) : d.entry k = none := by
  simp [Db.entry, h.2 k]

theorem Wrote.holds_put {c : List Bytes} {io : Io} {key : Bytes} {value : Option Bytes} {old : Child → Prop}
    {s' : St} {H mx : Nat} {t' : T} {l pre post : List Nat} {m : Option Nat} {d : Db}
    (w : Wrote c io key value old s' H t' (pre ++ c.length :: post) mx) (hio : io.appendOk = true)
    (hn : d.nextSeq = c.length) (hc : Contents c l d) (hl : Loc c key l m pre post) (hlt : ∀ q ∈ l, q < c.length) :
    Holds s' (d.write key value) := by
  obtain ⟨ns, hcore, _⟩ := w.core
  refine ⟨w.wf, by rw [w.io]; exact hio, by simp [Db.write, hcore, hn], .inr ⟨H, t', w.tree, w.coh, ?_⟩⟩
  rw [w.flat, hcore]
  exact hc.write hl hlt hn

theorem Wrote.holds_del {c : List Bytes} {io : Io} {key : Bytes} {value : Option Bytes} {old : Child → Prop}
    {s' : St} {H mx : Nat} {t' : T} {l pre post : List Nat} {m : Option Nat} {d : Db}
    (w : Wrote c io key value old s' H t' (pre ++ post) mx) (hio : io.appendOk = true)
    (hn : d.version = c.length) (hc : Contents c l d) (hl : Loc c key l m pre post) (hlt : ∀ q ∈ l, q < c.length) :
    Holds s' (d.remove key) := by
  obtain ⟨ns, hcore, _⟩ := w.core
  refine ⟨w.wf, by rw [w.io]; exact hio, by simp [Db.remove, hcore, hn], .inr ⟨H, t', w.tree, w.coh, ?_⟩⟩
  rw [w.flat, hcore]
  exact hc.remove hl hlt

theorem Bare.contents {c c' : List Bytes} {d : Db} (h : Bare c d) : Contents c' [] d := by
  intro k q v
  simp [h.2 k]

/-- `put_compare_and_swap`. -/
theorem putCAS_holds {s : St} {d : Db} (h : Holds s d) (k : Bytes) (v : Option Bytes)
    (cas : Option KeyValueData → KeyValueData → Bool) :
    ∃ s', putCompareAndSwap k v cas s = (.ok ((d.map k).map (·.1),
        if cas (d.entry k) ⟨d.nextSeq, k, v⟩ then some d.nextSeq else none), s') ∧
      Holds s' (if cas (d.entry k) ⟨d.nextSeq, k, v⟩ then d.write k v else d.withHeader) := by
  rcases h.store with hb | ⟨H, t, ht, hc, hcon⟩
  · have hn := hb.nextSeq h.ver
    rw [hb.entry, hn, hb.2 k]
    obtain ⟨h1, h2⟩ := putCAS_empty hb.1 h.wf h.ok k v cas
    cases hcas : cas none ⟨1, k, v⟩ with
    | false =>
      refine ⟨s.ready, h1 hcas, ?_⟩
      have hl := St.ready_len hb.1
      refine ⟨St.ready_wf h.wf, ?_, ?_, .inl ⟨by omega, hb.2⟩⟩
      · unfold St.ready; split
        · exact h.ok
        · exact h.ok
      · simp [Db.withHeader, hn, hl]
    | true =>
      obtain ⟨s', t', h3, w⟩ := h2 hcas
      refine ⟨s', h3, ?_⟩
      have hl := St.ready_len hb.1
      have hloc : Loc s.ready.core k [] none [] [] := ⟨rfl, by simp, by simp, by simp⟩
      exact Wrote.holds_put (pre := []) (post := []) (by rw [hl]; exact w) h.ok (by rw [hn, hl])
        hb.contents hloc (by simp)
  · have hn : d.nextSeq = s.core.length := Db.nextSeq_tree h.ver (by have := ht.two; omega)
    obtain ⟨m, pre, post, s', hloc, h1, h2⟩ := putCAS_tree ht h.wf hc h.ok k v cas
    rw [hn, hcon.entry hloc, hcon.seq hloc]
    cases hcas : cas (m.map fun q => ⟨q, keyOf s.core q, valOf s.core q⟩) ⟨s.core.length, k, v⟩ with
    | false =>
      obtain ⟨h3, e⟩ := h1 hcas
      refine ⟨s', h3, ?_⟩
      have : d.withHeader = d := by
        unfold Db.withHeader; rw [hn, ← h.ver]
      rw [if_neg (by simp), this]
      exact h.ext e
    | true =>
      obtain ⟨H', t', h3, w, _⟩ := h2 hcas
      exact ⟨s', h3, w.holds_put h.ok hn hcon hloc ht.flat_lt⟩

/-- `del_compare_and_swap`. -/
theorem delCAS_holds {s : St} {d : Db} (h : Holds s d) (k : Bytes) (cas : KeyValueData → Bool) :
    ∃ s', delCompareAndSwap k cas s = (.ok ((d.entry k).map fun e => (cas e, e.seq)), s') ∧
      Holds s' (d.next (.delCas k cas)) := by
  rcases h.store with hb | ⟨H, t, ht, hc, hcon⟩
  · refine ⟨s, ?_, ?_⟩
    · rw [delCAS_empty hb.1, hb.entry]; rfl
    · simp only [Db.next, hb.entry]; exact h
  · obtain ⟨m, pre, post, s', hloc, h0, h1, h2⟩ := delCAS_tree ht h.wf hc h.ok k cas
    simp only [Db.next]
    rw [hcon.entry hloc]
    cases m with
    | none =>
      obtain ⟨h3, e⟩ := h0 rfl
      exact ⟨s', h3, h.ext e⟩
    | some q =>
      simp only [Option.map_some]
      cases hcas : cas ⟨q, keyOf s.core q, valOf s.core q⟩ with
      | false =>
        obtain ⟨h3, e⟩ := h1 q rfl hcas
        exact ⟨s', h3, h.ext e⟩
      | true =>
        obtain ⟨H', t', h3, w, _⟩ := h2 q rfl hcas
        exact ⟨s', h3, w.holds_del h.ok h.ver hcon hloc ht.flat_lt⟩

theorem get_holds {s : St} {d : Db} (h : Holds s d) (k : Bytes) :
    ∃ s', get k s = (.ok (d.map k), s') ∧ Ext s s' := by
  rcases h.store with hb | ⟨H, t, ht, hc, hcon⟩
  · refine ⟨s, ?_, Ext.refl h.wf⟩
    have hroot : getRoot false s = (.ok none, s) := by
      rcases Nat.lt_or_ge s.core.length 1 with hl | hl
      · exact getRoot_zero_false (by omega)
      · exact getRoot_one (by have := hb.1; omega) false
    unfold get
    rw [bind_ok hroot, hb.2 k]
    rfl
  · obtain ⟨m, pre, post, s', h1, e, hloc⟩ := get_run ht h.wf hc k
    exact ⟨s', by rw [h1, hcon.loc hloc], e⟩

/-- `Ext` and the core extended by whole blocks: the core only grows. -/
theorem createHeader_holds {s : St} {d : Db} (h : Holds s d) (m : Option Metadata) :
    (s.core.length = 0 → createHeader m s
      = (.ok 1, { s with core := s.core ++ [encodeHeader ⟨PROTOCOL, m⟩] })) ∧
    (s.core.length ≠ 0 → createHeader m s = (.error .headerAlreadyExists, s)) := by
  constructor
  · intro h0
    unfold createHeader
    rw [bind_ok (version_run s), if_neg (by omega)]
    simp [coreAppend, h.ok, h0]
  · intro h0
    unfold createHeader
    rw [bind_ok (version_run s), if_pos h0]
    rfl

/-- A traversal of a tree lists the abstract database. -/
theorem listing_isListing {c : List Bytes} {H : Nat} {t : T} {d : Db} (ht : TreeAt c H t) (hcon : Contents c t.flat d)
    {conf : TraverseConfig} (hS : conf.Sound) : IsListing d conf ((listing c conf t).map (kvOf c)) := by
  have hs : (t.flat.filter fun q => conf.inBounds (keyOf c q)).Pairwise fun x y => keyOf c x < keyOf c y :=
    ht.srt.filter _
  constructor
  · unfold listing dirFlat
    cases conf.reversed with
    | false =>
      rw [if_neg (by simp), if_neg (by simp), List.pairwise_map]
      exact hs
    | true =>
      rw [if_pos rfl, if_pos rfl, ← List.map_reverse, ← List.filter_reverse, List.reverse_reverse, List.pairwise_map]
      exact hs
  · intro e
    have hmem : ∀ q, q ∈ listing c conf t ↔ q ∈ t.flat ∧ conf.inBounds (keyOf c q) = true := by
      intro q
      unfold listing dirFlat
      cases conf.reversed <;> simp
    rw [List.mem_map]
    constructor
    · rintro ⟨q, hq, rfl⟩
      obtain ⟨h1, h2⟩ := (hmem q).mp hq
      refine ⟨?_, (hS _).mp h2⟩
      have := (hcon (keyOf c q) q (valOf c q)).mpr ⟨h1, rfl, rfl⟩
      simp [Db.entry, kvOf, this]
    · rintro ⟨h1, h2⟩
      obtain ⟨q, k, v⟩ := e
      simp only [Db.entry, Option.map_eq_some_iff] at h1
      obtain ⟨⟨q', v'⟩, h3, h4⟩ := h1
      cases h4
      obtain ⟨h5, h6, h7⟩ := (hcon _ _ _).mp h3
      refine ⟨q', (hmem q').mpr ⟨h5, ?_⟩, ?_⟩
      · rw [h6]; exact (hS _).mpr h2
      · simp [kvOf, h6, h7]

theorem collect_bare {s : St} {d : Db} (hb : Bare s.core d) (sched : List Bool) (conf : TraverseConfig) :
    collect sched conf s = (.error .noRoot, s) := by
  have hroot : getRoot false s = (.ok none, s) := by
    rcases Nat.lt_or_ge s.core.length 1 with hl | hl
    · exact getRoot_zero_false (by omega)
    · exact getRoot_one (by have := hb.1; omega) false
  have h1 : traverse conf s = (.error .noRoot, s) := by
    unfold traverse
    rw [bind_ok hroot]
    rfl
  unfold collect
  rw [bind_error h1]

/-- Every call returns what the abstract database allows and leaves the handle showing the next one. -/
theorem exec_refines {s : St} {d : Db} (h : Holds s d) (c : Cmd) :
    d.Returns c (exec c s).1 ∧ Holds (exec c s).2 (d.next c) := by
  cases c with
  | version => exact ⟨by simp [exec, replyOf, version, Db.Returns, h.ver], h⟩
  | get k =>
    obtain ⟨s', h1, e⟩ := get_holds h k
    simp only [exec, replyOf, h1, Db.Returns, Db.next]
    exact ⟨trivial, h.ext e⟩
  | put k v =>
    obtain ⟨s', h1, h2⟩ := putCAS_holds h k v (fun _ _ => true)
    simp only [if_true] at h1 h2
    have hp : put k v s = (.ok ((d.map k).map (·.1), d.nextSeq), s') := by
      unfold put
      rw [bind_ok h1]
      rfl
    simp only [exec, replyOf, hp, Db.Returns, Db.next]
    exact ⟨trivial, h2⟩
  | putCas k v cas =>
    obtain ⟨s', h1, h2⟩ := putCAS_holds h k v cas
    simp only [exec, replyOf, h1, Db.Returns, Db.next]
    exact ⟨trivial, h2⟩
  | del k =>
    obtain ⟨s', h1, h2⟩ := delCAS_holds h k (fun _ => true)
    have hp : del k s = (.ok ((d.map k).map (·.1)), s') := by
      unfold del
      rw [bind_ok h1]
      cases hd : d.map k <;> simp [Db.entry, hd] <;> rfl
    simp only [exec, replyOf, hp, Db.Returns]
    refine ⟨trivial, ?_⟩
    simp only [Db.next] at h2 ⊢
    cases hd : d.map k with
    | none => simp only [Db.entry, hd] at h2; exact h2
    | some e => simp only [Db.entry, hd] at h2; exact h2
  | delCas k cas =>
    obtain ⟨s', h1, h2⟩ := delCAS_holds h k cas
    simp only [exec, replyOf, h1, Db.Returns]
    exact ⟨trivial, h2⟩
  | createHeader m =>
    obtain ⟨h1, h2⟩ := createHeader_holds h m
    by_cases h0 : s.core.length = 0
    · simp only [exec, replyOf, h1 h0, Db.Returns, Db.next, h.ver, h0, if_true]
      refine ⟨trivial, h.wf.append _, h.ok, ?_, .inl ⟨by simp [h0], ?_⟩⟩
      · simp [Db.withHeader, Db.nextSeq, h.ver, h0]
      · rcases h.store with hb | ⟨H, t, ht, _⟩
        · exact hb.2
        · have := ht.two; omega
    · simp only [exec, replyOf, h2 h0, Db.Returns, Db.next, h.ver, h0, if_false]
      refine ⟨trivial, ?_⟩
      have : d.withHeader = d := by
        unfold Db.withHeader
        rw [Db.nextSeq_tree (n := d.version) rfl (by rw [h.ver]; omega)]
      rw [this]; exact h
  | traverse b sched =>
    simp only [exec, replyOf, traverseSession, Db.Returns, Db.next]
    cases hb : b.build with
    | error e => exact ⟨rfl, h⟩
    | ok conf =>
      have hS := build_sound hb
      simp only []
      rcases h.store with hbare | ⟨H, t, ht, hc, hcon⟩
      · rw [bind_error (collect_bare hbare sched conf), if_pos (by rw [h.ver]; exact hbare.1)]
        exact ⟨rfl, h⟩
      · rw [if_neg (by rw [h.ver]; have := ht.two; omega)]
        obtain ⟨xs, rest, fin, s', h1, e, hlist, hfin⟩ := collect_run ht h.wf hc hS sched
        rw [bind_ok h1]
        refine ⟨⟨(listing s.core conf t).map (kvOf s.core), xs.map (kvOf s.core), fin.isNone,
          listing_isListing ht hcon hS, ?_, ?_⟩, h.ext e⟩
        · simp [Function.comp_def]
        · cases fin with
          | none =>
            simp only [] at hfin
            subst hfin
            rw [hlist]; simp
          | some fs =>
            rw [hlist]; simp
  | reopen =>
    exact ⟨rfl, h.stored.open⟩

theorem run_refines : ∀ (cs : List Cmd) {s : St} {d : Db}, Holds s d →
    d.Answers cs (runReplies cs s) ∧ Holds (runSt cs s) (d.after cs) := by
  intro cs
  induction cs with
  | nil => intro s d h; exact ⟨rfl, h⟩
  | cons c cs ih =>
    intro s d h
    obtain ⟨h1, h2⟩ := exec_refines h c
    obtain ⟨h3, h4⟩ := ih h2
    exact ⟨⟨_, _, rfl, h1, h3⟩, h4⟩

/-! ## The log of writes -/

/-- The database agrees with a log, newest write first. -/
structure Logged (log : List Write) (d : Db) : Prop where
  map : ∀ k, d.map k = lastWrite k log
  fresh : log = [] → d.version ≤ 1
  count : log ≠ [] → d.version = log.length + 1

theorem Logged.empty : Logged [] Db.empty := ⟨fun _ => rfl, fun _ => by simp [Db.empty], fun h => absurd rfl h⟩

theorem Logged.nextSeq {log : List Write} {d : Db} (h : Logged log d) : d.nextSeq = log.length + 1 := by
  unfold Db.nextSeq
  by_cases hl : log = []
  · have := h.fresh hl; rw [hl]; simp; omega
  · have := h.count hl; omega

theorem Logged.write {log : List Write} {d : Db} (h : Logged log d) (k : Bytes) (v : Option Bytes) :
    Logged (.set k v :: log) (d.write k v) := by
  refine ⟨?_, by simp, ?_⟩
  · intro k'
    simp only [Db.write, lastWrite]
    by_cases hk : k = k'
    · subst hk; simp [h.nextSeq, Write.key]
    · rw [if_neg (fun e => hk e.symm), if_neg (show ¬ (Write.set k v).key = k' from hk), h.map]
  · intro _
    simp [Db.write, h.nextSeq]

theorem Logged.remove {log : List Write} {d : Db} (h : Logged log d) {k : Bytes} (hk : (d.map k).isSome) :
    Logged (.clear k :: log) (d.remove k) := by
  have hl : log ≠ [] := by
    intro e
    rw [h.map, e] at hk
    simp [lastWrite] at hk
  refine ⟨?_, by simp, ?_⟩
  · intro k'
    simp only [Db.remove, lastWrite]
    by_cases hk : k = k'
    · subst hk; simp [Write.key]
    · rw [if_neg (fun e => hk e.symm), if_neg (show ¬ (Write.clear k).key = k' from hk), h.map]
  · intro _
    simp [Db.remove, h.count hl]

theorem Logged.withHeader {log : List Write} {d : Db} (h : Logged log d) : Logged log d.withHeader := by
  refine ⟨h.map, ?_, ?_⟩
  · intro hl; have := h.fresh hl; simp only [Db.withHeader, Db.nextSeq]; omega
  · intro hl; simp only [Db.withHeader]; rw [h.nextSeq]

theorem Logged.step {log : List Write} {d : Db} (h : Logged log d) {c : Cmd} {r : Reply} (hr : d.Returns c r) :
    Logged ((effect c r).toList ++ log) (d.next c) := by
  cases c with
  | version => cases hr; exact h
  | get k => cases hr; exact h
  | put k v => cases hr; exact h.write k v
  | putCas k v cas =>
    simp only [Db.Returns] at hr
    subst hr
    simp only [Db.next]
    cases hcas : cas (d.entry k) ⟨d.nextSeq, k, v⟩ with
    | true => exact h.write k v
    | false => exact h.withHeader
  | del k =>
    simp only [Db.Returns] at hr
    subst hr
    simp only [Db.next]
    cases hd : d.map k with
    | none => exact h
    | some e => exact h.remove (by rw [hd]; rfl)
  | delCas k cas =>
    simp only [Db.Returns] at hr
    subst hr
    simp only [Db.next]
    cases hd : d.map k with
    | none => simp only [Db.entry, hd]; exact h
    | some e =>
      simp only [Db.entry, hd, Option.map_some]
      cases hcas : cas ⟨e.1, k, e.2⟩ with
      | true => exact h.remove (by rw [hd]; rfl)
      | false => exact h
  | createHeader m =>
    simp only [Db.Returns] at hr
    subst hr
    have : effect (.createHeader m) (if d.version = 0 then .created 1 else .error .headerAlreadyExists) = none := by
      split <;> rfl
    rw [this]
    exact h.withHeader
  | traverse b sched => exact h
  | reopen => cases hr; exact h

theorem Logged.steps : ∀ (cs : List Cmd) {log : List Write} {d : Db} {rs : List Reply}, Logged log d →
    d.Answers cs rs → Logged ((effects cs rs).reverse ++ log) (d.after cs) := by
  intro cs
  induction cs with
  | nil => intro log d rs h ha; exact h
  | cons c cs ih =>
    intro log d rs h ha
    obtain ⟨r, rs', rfl, h1, h2⟩ := ha
    have := ih (h.step h1) h2
    simp only [effects, List.reverse_append]
    have e : ∀ o : Option Write, o.toList.reverse = o.toList := by intro o; cases o <;> rfl
    rw [e, List.append_assoc]
    exact this

theorem Reachable.holds {s : St} (h : Reachable s) : ∃ d, Holds s d := by
  obtain ⟨cs, rfl⟩ := h
  exact ⟨_, (run_refines cs Holds.init).2⟩

theorem runSt_append (a b : List Cmd) (s : St) : runSt (a ++ b) s = runSt b (runSt a s) := by
  induction a generalizing s with
  | nil => rfl
  | cons c cs ih => exact ih _

theorem runReplies_append (a b : List Cmd) (s : St) :
    runReplies (a ++ b) s = runReplies a s ++ runReplies b (runSt a s) := by
  induction a generalizing s with
  | nil => rfl
  | cons c cs ih => exact congrArg _ (ih _)

theorem Reachable.step {s : St} (h : Reachable s) (c : Cmd) : Reachable (exec c s).2 := by
  obtain ⟨cs, rfl⟩ := h
  exact ⟨cs ++ [c], by rw [runSt_append]; rfl⟩

theorem logged (cs : List Cmd) :
    Logged (effects cs (runReplies cs St.init)).reverse (Db.empty.after cs) := by
  have := Logged.empty.steps cs (run_refines cs Holds.init).1
  rwa [List.append_nil] at this

end Hyperbee
