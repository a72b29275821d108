import Verif.Props.SubHandmade
/-!
# Reading all of a sub-database (C106)
-/

namespace Hyperbee

/-- The traversal, polled often enough, yields all of the sub-database and nothing else: what `get` on it
finds, under the keys it finds it under, each key once, in the order asked for. -/
def ReadsWhole (p : Prefixed) (conf : TraverseConfig) (s : St) : Prop :=
  ∃ (full : List KeyValueData) (N : Nat),
    ((if conf.reversed then full.reverse else full).Pairwise (fun a b => a.key < b.key) ∧
      ∀ e : KeyValueData, e ∈ full ↔ (p.exec (.get e.key) s).1 = .got (some (e.seq, e.value))) ∧
    ∀ sched, N ≤ sched.count true → (p.browse conf sched s).1 = .items (full.map .ok) true

/-- Bytes other than the separator, as many as it has, behind everything that begins with it. -/
theorem beyond : ∀ (sep lo : Bytes), (¬ ∀ c ∈ sep, c = 255) → sep ++ lo < List.replicate sep.length 255 := by
  intro sep
  induction sep with
  | nil => intro lo h; exact absurd (by simp) h
  | cons c sep ih =>
    intro lo h
    rw [List.length_cons, List.replicate_succ, List.cons_append, List.cons_lt_cons_iff]
    by_cases hc : c = 255
    · subst hc
      exact .inr ⟨rfl, ih lo fun h' => h (by simpa using h')⟩
    · refine .inl ?_
      rw [UInt8.lt_iff_toNat_lt]
      have h1 := c.toNat_lt
      have h2 : c.toNat ≠ 255 := fun e => hc (UInt8.toNat_inj.mp e)
      have h3 : (255 : UInt8).toNat = 255 := rfl
      omega

/-- Behind a separator of bytes 255 come only keys that begin with it. -/
theorem none_beyond : ∀ (sep x : Bytes), (∀ c ∈ sep, c = 255) → (sep < x ∨ x = sep) → sep <+: x := by
  intro sep
  induction sep with
  | nil => intro x _ _; exact List.nil_prefix
  | cons c sep ih =>
    intro x h hx
    rcases hx with hx | rfl
    · cases x with
      | nil => simp at hx
      | cons b x =>
        obtain ⟨rfl, hs⟩ := List.forall_mem_cons.mp h
        rw [List.cons_lt_cons_iff] at hx
        rcases hx with hx | ⟨rfl, hx⟩
        · rw [UInt8.lt_iff_toNat_lt] at hx
          have := b.toNat_lt
          have h3 : (255 : UInt8).toNat = 255 := rfl
          omega
        · exact (List.prefix_cons_inj _).mpr (ih x hs (.inl hx))
    · exact List.prefix_rfl

/-- An entry of the sub-database that is not covered is missed. -/
theorem miss {p : Prefixed} {conf : TraverseConfig} {y : Bytes} (h : ¬ SubCovers p conf (p.pre ++ p.sep ++ y)) :
    ∃ s, Mixed s ∧ 2 ≤ s.core.length ∧ ¬ ReadsWhole p conf s := by
  have hinit : Mixed St.init := ⟨[], rfl⟩
  have hM : Mixed (p.exec (.put y none) St.init).2 := hinit.next (some p, .put y none)
  obtain ⟨⟨old, q, _, hget, _⟩, _⟩ := sub_readback hinit p y none
  obtain ⟨d, hd⟩ := hM.holds
  generalize (p.exec (.put y none) St.init).2 = s at *
  have h2 : 2 ≤ s.core.length := by
    rcases hd.store with hb | ⟨H, t, ht, _, _⟩
    · have : (p.exec (.get y) s).1 = .got (d.map (p.pre ++ p.sep ++ y)) := (exec_refines hd (.get (p.pre ++ p.sep ++ y))).1
      rw [hget, hb.2] at this
      cases this
    · exact ht.two
  refine ⟨s, hM, h2, ?_⟩
  rintro ⟨full, N, ⟨_, hf⟩, hr⟩
  obtain ⟨all, M, ⟨_, hm⟩, hx⟩ := sub_handmade_aux hd h2 p conf
  have hy : (⟨q, y, none⟩ : KeyValueData) ∈ full := (hf _).mpr hget
  have hN := hr (List.replicate N true) (by simp)
  obtain ⟨xs, rest, hall, _, ⟨fin, r1, _, _⟩ | ⟨r1, _⟩⟩ := hx (List.replicate N true)
  · rw [r1] at hN
    injection hN with hN _
    have : (Except.ok ⟨q, y, none⟩ : Except Err KeyValueData) ∈ full.map Except.ok := List.mem_map_of_mem hy
    rw [← hN] at this
    obtain ⟨e, he, hc⟩ := List.mem_map.mp this
    injection hc with hc
    obtain ⟨g1, g2⟩ := (hm e).mp (by rw [hall]; exact List.mem_append_left _ he)
    have hq : e.seq = q := congrArg KeyValueData.seq hc
    have e1 : (exec (.get e.key) s).1 = .got (d.map e.key) := (exec_refines hd (.get e.key)).1
    have e2 : (p.exec (.get y) s).1 = .got (d.map (p.pre ++ p.sep ++ y)) := (exec_refines hd (.get (p.pre ++ p.sep ++ y))).1
    rw [e1] at g1
    rw [e2] at hget
    injection g1 with g1
    injection hget with hget
    rcases hd.store with hb | ⟨H, t, ht, hco, hcon⟩
    · rw [hb.2] at g1; cases g1
    · obtain ⟨_, k1, _⟩ := (hcon _ _ _).mp g1
      obtain ⟨_, k2, _⟩ := (hcon _ _ _).mp hget
      rw [hq] at k1
      rw [k1.symm.trans k2] at g2
      exact h g2
  · rw [r1] at hN
    cases hN

/-- A key that does not belong to the sub-database, but is covered, is one too many. -/
theorem stray {p : Prefixed} {conf : TraverseConfig} {k : Bytes} (h : SubCovers p conf k) (hk : ¬ p.pre ++ p.sep <+: k) :
    ∃ s, Mixed s ∧ 2 ≤ s.core.length ∧ ¬ ReadsWhole p conf s := by
  have hinit : Mixed St.init := ⟨[], rfl⟩
  have hM : Mixed (exec (.put k none) St.init).2 := hinit.next (none, .put k none)
  have hd : Holds (exec (.put k none) St.init).2 (Db.empty.next (.put k none)) := (exec_refines init_holds (.put k none)).2
  have hmap : (Db.empty.next (.put k none)).map k ≠ none := by simp [Db.next, Db.write]
  have hno : ∀ y, (Db.empty.next (.put k none)).map (p.pre ++ p.sep ++ y) = none := by
    intro y
    have : p.pre ++ p.sep ++ y ≠ k := fun e => hk ⟨y, e⟩
    simp only [Db.next, Db.write, this, if_false]
    rfl
  generalize (exec (.put k none) St.init).2 = s at *
  generalize Db.empty.next (.put k none) = d at *
  have h2 : 2 ≤ s.core.length := by
    rcases hd.store with hb | ⟨H, t, ht, _, _⟩
    · exact absurd (hb.2 k) hmap
    · exact ht.two
  refine ⟨s, hM, h2, ?_⟩
  rintro ⟨full, N, ⟨_, hf⟩, hr⟩
  have hempty : full = [] := by
    cases full with
    | nil => rfl
    | cons e full =>
      have := (hf e).mp (by simp)
      have e2 : (p.exec (.get e.key) s).1 = .got (d.map (p.pre ++ p.sep ++ e.key)) := (exec_refines hd (.get (p.pre ++ p.sep ++ e.key))).1
      rw [e2, hno] at this
      cases this
  subst hempty
  obtain ⟨all, M, ⟨_, hm⟩, hx⟩ := sub_handmade_aux hd h2 p conf
  obtain ⟨z, hz⟩ := Option.ne_none_iff_exists'.mp hmap
  have hin : (⟨z.1, k, z.2⟩ : KeyValueData) ∈ all := (hm _).mpr ⟨by
    have : (exec (.get k) s).1 = .got (d.map k) := (exec_refines hd (.get k)).1
    rw [this, hz], h⟩
  have hN := hr (List.replicate (N + M) true) (by simp)
  obtain ⟨xs, rest, hall, _, ⟨fin, r1, r2, r3⟩ | ⟨r1, _⟩⟩ := hx (List.replicate (N + M) true)
  · rw [r1] at hN
    injection hN with hN hfin
    have hxs : xs = [] := by simpa using hN
    rw [hall, hxs, r2 hfin] at hin
    cases hin
  · rw [r1] at hN
    cases hN

/-! ## C106 -/

/-- Reading all of a sub-database by one traversal: there is a configuration that does it, whatever is stored,
exactly if the prefix is not empty and does not end in the byte 255, and the separator has no bytes other
than 255.  For all other sub-databases every configuration misses entries or yields foreign ones, on some contents. -/
theorem sub_whole_iff (p : Prefixed) :
    (∃ conf, ∀ s, Mixed s → 2 ≤ s.core.length → ReadsWhole p conf s) ↔
      (∃ last, p.pre.getLast? = some last ∧ last ≠ 255) ∧ ∀ c ∈ p.sep, c = 255 := by
  constructor
  · rintro ⟨conf, hconf⟩
    -- a key that is not the lower bound, above any given one
    have hfresh : ∀ hi : Bytes, ∃ y, hi < y ∧ conf.minValue ≠ .finite y := by
      intro hi
      by_cases h : conf.minValue = .finite (hi ++ [0])
      · refine ⟨hi ++ [0, 0], blt_of_prefix ⟨[0, 0], rfl⟩ (by simp), ?_⟩
        rw [h]
        simp
      · exact ⟨hi ++ [0], blt_of_prefix ⟨[0], rfl⟩ (by simp), h⟩
    have hbegin : ∀ y, conf.minValue ≠ .finite y → Begins p conf (p.pre ++ p.sep ++ y) → p.sep ++ y = [] := by
      intro y hy hb
      unfold Begins at hb
      cases hm : conf.minValue with
      | finite lo =>
        rw [hm] at hb
        refine absurd ?_ hy
        rw [hm, List.append_cancel_left hb.2]
      | infinite i =>
        rw [hm] at hb
        exact List.append_cancel_left (as := p.pre) (by rw [← List.append_assoc, hb, List.append_nil])
    have hcov : ∀ y, SubCovers p conf (p.pre ++ p.sep ++ y) := fun y => Classical.byContradiction fun h => by
      obtain ⟨s, h1, h2, h3⟩ := miss h
      exact h3 (hconf s h1 h2)
    cases hM : conf.maxValue with
    | finite hi =>
      exfalso
      obtain ⟨y, hlt, hne⟩ := hfresh hi
      rcases hcov y with h | ⟨_, h⟩
      · have := h.2
        rw [hM] at this
        simp only [append_lt_iff, append_eq_iff] at this
        rcases this with h' | ⟨_, h'⟩
        · exact blt_irrefl _ (blt_trans hlt h')
        · exact blt_irrefl _ (h' ▸ hlt)
      · have h' := (List.append_eq_nil_iff.mp (hbegin y hne h)).2
        rw [h'] at hlt
        simp at hlt
    | infinite j =>
      have hlast : ∃ last, p.pre.getLast? = some last ∧ last ≠ 255 := by
        obtain ⟨y, hlt, hne⟩ := hfresh []
        have hy : ¬ p.sep ++ y = [] := fun h' => by
          rw [(List.append_eq_nil_iff.mp h').2] at hlt
          simp at hlt
        rcases hcov y with h | ⟨_, h⟩
        · have := h.2
          rw [hM] at this
          rcases this with h' | ⟨_, h'⟩
          · exact absurd (List.append_cancel_left (as := p.pre) (by rw [← List.append_assoc, h', List.append_nil])) hy
          · exact h'
        · exact absurd (hbegin y hne h) hy
      refine ⟨hlast, Classical.byContradiction fun hsep => ?_⟩
      have hk : ¬ p.pre ++ p.sep <+: p.pre ++ List.replicate p.sep.length 255 := by
        rintro ⟨y, hy⟩
        rw [List.append_assoc] at hy
        have hy := List.append_cancel_left hy
        have hlen := congrArg List.length hy
        simp only [List.length_append, List.length_replicate] at hlen
        have : y = [] := List.length_eq_zero_iff.mp (by omega)
        rw [this, List.append_nil] at hy
        exact hsep fun c hc => by
          rw [hy] at hc
          exact List.eq_of_mem_replicate hc
      have hkc : SubCovers p conf (p.pre ++ List.replicate p.sep.length 255) := by
        refine .inl ⟨?_, ?_⟩
        · cases conf.minValue with
          | finite lo =>
            refine .inl ?_
            rw [List.append_assoc, append_lt_iff]
            exact beyond p.sep lo hsep
          | infinite i =>
            refine .inl (blt_of_prefix ⟨_, rfl⟩ ?_)
            intro h
            have h' := congrArg List.length h
            simp only [List.length_append, List.length_replicate] at h'
            have : p.sep = [] := List.length_eq_zero_iff.mp (by omega)
            exact hsep (by simp [this])
        · rw [hM]
          exact .inr ⟨⟨_, rfl⟩, hlast⟩
      obtain ⟨s, h1, h2, h3⟩ := stray hkc hk
      exact h3 (hconf s h1 h2)
  · rintro ⟨hlast, hsep⟩
    refine ⟨⟨.finite [], true, .infinite .positive, true, false⟩, fun s hs h2 => ?_⟩
    obtain ⟨d, hd⟩ := hs.holds
    obtain ⟨full, N, ⟨f1, f2⟩, f3⟩ := sub_covers_lists hd h2 p ⟨.finite [], true, .infinite .positive, true, false⟩
      (P := fun _ => True) (fun k _ => by
        constructor
        · intro h
          have hp : p.pre ++ p.sep <+: k := by
            rcases h with ⟨h1, h2⟩ | ⟨_, h⟩
            · simp only [List.append_nil, true_and] at h1 h2
              have hpre : p.pre <+: k := by
                rcases h2 with rfl | h2
                · exact List.prefix_rfl
                · exact h2.1
              obtain ⟨x, rfl⟩ := hpre
              rw [append_lt_iff, append_eq_iff] at h1
              obtain ⟨y, rfl⟩ := none_beyond p.sep x hsep h1
              exact ⟨y, by simp⟩
            · exact ⟨[], h.2.symm⟩
          obtain ⟨y, rfl⟩ := hp
          exact ⟨y, rfl, trivial⟩
        · rintro ⟨y, rfl, _⟩
          refine .inl ⟨?_, .inr ⟨⟨p.sep ++ y, by simp⟩, hlast⟩⟩
          simp only [append_lt_iff, append_eq_iff, true_and]
          cases y with
          | nil => exact .inr rfl
          | cons c y => exact .inl (by simp))
    exact ⟨full, N, ⟨f1, fun e => (f2 e).trans (and_iff_left trivial)⟩, f3⟩

/-- With the separator a sub-database is given by default there is no such configuration. -/
theorem sub_whole_false (pre : Bytes) (conf : TraverseConfig) :
    ∃ s, Mixed s ∧ 2 ≤ s.core.length ∧ ¬ ReadsWhole ⟨pre, defaultSeparator⟩ conf s := by
  apply Classical.byContradiction
  intro h
  have := ((sub_whole_iff ⟨pre, defaultSeparator⟩).mp ⟨conf, fun s h1 h2 => Classical.byContradiction fun h3 => h ⟨s, h1, h2, h3⟩⟩).2
  exact absurd (this 0 (by simp [defaultSeparator])) (by decide)

theorem upper_bound : ∀ l : List Bytes, ∃ hi : Bytes, ∀ k ∈ l, k < hi ∨ k = hi := by
  intro l
  induction l with
  | nil => exact ⟨[], by simp⟩
  | cons a l ih =>
    obtain ⟨hi, h⟩ := ih
    by_cases ha : hi < a
    · refine ⟨a, fun k hk => ?_⟩
      rcases List.mem_cons.mp hk with rfl | hk
      · exact .inr rfl
      · rcases h k hk with h | rfl
        · exact .inl (blt_trans h ha)
        · exact .inl ha
    · refine ⟨hi, fun k hk => ?_⟩
      rcases List.mem_cons.mp hk with rfl | hk
      · exact List.le_iff_lt_or_eq.mp (List.not_lt.mp ha)
      · exact h k hk

/-- Missing from the full statement, that one configuration does it whatever is stored: here it depends on the
contents.  In every state there is a key such that the traversal from the empty key up to that one, in either
direction, reads all of the sub-database and nothing else; as does every traversal up to a greater key. -/
theorem sub_whole_partial {s : St} (hs : Mixed s) (h2 : 2 ≤ s.core.length) (p : Prefixed) :
    ∃ hi, ∀ hi' rev, hi < hi' ∨ hi' = hi → ReadsWhole p ⟨.finite [], true, .finite hi', true, rev⟩ s := by
  obtain ⟨d, hd⟩ := hs.holds
  rcases hd.store with hb | ⟨H, t, ht, _, hcon⟩
  · have := hb.1; omega
  obtain ⟨hi, hhi⟩ := upper_bound (t.flat.map fun q => (keyOf s.core q).drop (p.pre.length + p.sep.length))
  refine ⟨hi, fun hi' rev hle => ?_⟩
  have hmin : ∀ y : Bytes, ([] : Bytes) < y ∨ y = [] := fun y => by
    cases y with
    | nil => exact .inr rfl
    | cons c y => exact .inl (by simp)
  obtain ⟨full, N, ⟨f1, f2⟩, f3⟩ := sub_covers_lists hd h2 p ⟨.finite [], true, .finite hi', true, rev⟩
    (P := fun _ => True) (fun k hk => by
      rw [subCovers_two rfl rfl (.inr ?_) k]
      · refine exists_congr fun y => and_congr_right fun hy => iff_of_true ⟨?_, ?_⟩ trivial
        · rcases hmin y with h | h
          · exact .inl h
          · exact .inr ⟨rfl, h⟩
        · have e1 : (exec (.get k) s).1 = .got (d.map k) := (exec_refines hd (.get k)).1
          rw [e1] at hk
          obtain ⟨z, hz⟩ := Option.ne_none_iff_exists'.mp (fun h => hk (by rw [h]) : d.map k ≠ none)
          obtain ⟨m1, m2, _⟩ := (hcon _ _ _).mp hz
          have hyk := hhi _ (List.mem_map_of_mem (f := fun q => (keyOf s.core q).drop (p.pre.length + p.sep.length)) m1)
          have hdrop : (keyOf s.core z.1).drop (p.pre.length + p.sep.length) = y := by
            rw [m2, hy, List.drop_append_of_le_length (by simp), List.drop_eq_nil_of_le (by simp), List.nil_append]
          simp only [hdrop] at hyk
          rcases hle with hle | rfl
          · rcases hyk with h | rfl
            · exact .inl (blt_trans h hle)
            · exact .inl hle
          · rcases hyk with h | h
            · exact .inl h
            · exact .inr ⟨rfl, h⟩
      · rintro ⟨lo, hlo, _, hn⟩
        cases hlo
        refine hn ?_
        rcases hmin hi' with h | h
        · exact .inl h
        · exact .inr ⟨rfl, h.symm⟩)
  exact ⟨full, N, ⟨f1, fun e => (f2 e).trans (and_iff_left trivial)⟩, f3⟩

/-- A prefix and a separator that can be read by one traversal: all of it and nothing else, though there are keys
before and behind that begin with the prefix. -/
example : (∃ last, (⟨[97], [255]⟩ : Prefixed).pre.getLast? = some last ∧ last ≠ 255) ∧ (∀ c ∈ (⟨[97], [255]⟩ : Prefixed).sep, c = 255) ∧
    (Prefixed.browse ⟨[97], [255]⟩ ⟨.finite [], true, .infinite .positive, true, false⟩ (List.replicate 40 true)
      (runVia [(some ⟨[97], [255]⟩, .put [3] none), (none, .put [97] none), (some ⟨[97], [255]⟩, .put [] none), (none, .put [97, 254, 9] none),
        (none, .put [98] none), (some ⟨[97], [255]⟩, .put [255] none)] St.init).2).1 =
      .items [.ok ⟨3, [], none⟩, .ok ⟨1, [3], none⟩, .ok ⟨6, [255], none⟩] true :=
  ⟨⟨97, rfl, by decide⟩, by decide, by decide +kernel⟩

/-- With the default separator: up to a key beyond all of the sub-database, among keys of one whose name continues this one. -/
example : (Prefixed.browse ⟨[97], defaultSeparator⟩ ⟨.finite [], true, .finite [200], true, true⟩ (List.replicate 40 true)
      (runVia [(some ⟨[97], defaultSeparator⟩, .put [3] none), (some ⟨[97, 98], defaultSeparator⟩, .put [5] none),
        (some ⟨[97], defaultSeparator⟩, .put [] none)] St.init).2).1 =
      .items [.ok ⟨1, [3], none⟩, .ok ⟨3, [], none⟩] true := by decide +kernel

end Hyperbee
