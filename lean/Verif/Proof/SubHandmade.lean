import Verif.SpecSubCover
import Verif.Model.SubHandmade
import Verif.Props.Prefixed
import Verif.Props.Handmade
/-!
# Traversals of a sub-database with a configuration made by hand
-/

namespace Hyperbee

theorem boundedConf_covers (p : Prefixed) (conf : TraverseConfig) (k : Bytes) :
    Covers (p.boundedConf conf) k ↔ SubCovers p conf k := by
  unfold Covers SubCovers
  rw [boundedConf_range, boundedConf_reversed]
  refine or_congr_right (and_congr_right fun _ => ?_)
  unfold Begins Prefixed.boundedConf
  cases conf.minValue with
  | finite lo =>
    simp only [Prefixed.withKeyPrefix, LimitValue.finite.injEq]
    exact and_congr_right fun _ => eq_comm
  | infinite i =>
    simp only [LimitValue.finite.injEq, true_and]
    exact eq_comm

theorem sub_collect_alike {p : Prefixed} {conf conf' : TraverseConfig} (hA : Alike (p.boundedConf conf) conf') {s : St} {H : Nat} {t : T}
    (ht : TreeAt s.core H t) (hw : SWF s) (hc : Coh s (· ∈ t.refs)) (sched : List Bool) :
    ∃ fs s1, traverse conf' s = (.ok fs, s1) ∧
      drive p.strip sched fs s1 = ((p.collect sched conf s).1.map fun x => (x.1, x.2.map (List.map (Frame.withConf conf'))),
        (p.collect sched conf s).2) := by
  obtain ⟨a, s1, h1, e1, ha⟩ := getRoot_run ht hw false
  have htr : ∀ cf, traverse cf s = (.ok [Frame.new a cf], s1) := by
    intro cf
    unfold traverse
    rw [bind_ok h1]
    rfl
  obtain ⟨fs, s2, h2, e2, hsafe⟩ := traverse_safe ht hw hc (p.boundedConf conf)
  rw [htr (p.boundedConf conf)] at h2
  injection h2 with h2 h3
  injection h2 with h2
  subst h2 h3
  refine ⟨_, _, htr conf', ?_⟩
  unfold Prefixed.collect
  rw [bind_ok (htr (p.boundedConf conf))]
  exact drive_alike (fun x t => by rw [p.strip_eq]) hA sched [Frame.new a (p.boundedConf conf)] e2.wf hsafe

theorem strip_all {p : Prefixed} {c : List Bytes} : ∀ (xs : List Nat) (ys : List (Except Err KeyValueData)),
    xs.map (fun q => p.stripE (.ok (kvOf c q))) = ys.map Except.ok →
    (∀ e ∈ xs.map (kvOf c), p.pre.length + p.sep.length ≤ e.key.length) ∧
    ys = (xs.map (kvOf c)).map fun e => .ok { e with key := e.key.drop (p.pre.length + p.sep.length) } := by
  intro xs
  induction xs with
  | nil => intro ys h; cases ys with
    | nil => simp
    | cons _ _ => cases h
  | cons q xs ih =>
    intro ys h
    cases ys with
    | nil => cases h
    | cons y ys =>
      simp only [List.map_cons, List.cons.injEq] at h
      obtain ⟨i1, i2⟩ := ih ys h.2
      have hq := h.1
      unfold Prefixed.stripE at hq
      simp only [] at hq
      split at hq
      · rename_i hle
        injection hq with hq
        refine ⟨?_, by rw [List.map_cons, List.map_cons, ← i2, ← hq]⟩
        intro e he
        rw [List.map_cons, List.mem_cons] at he
        rcases he with rfl | he
        · exact hle
        · exact i1 e he
      · cases hq

theorem sub_handmade_aux {s : St} {d : Db} (hd : Holds s d) (h2 : 2 ≤ s.core.length) (p : Prefixed) (conf : TraverseConfig) :
    ∃ (all : List KeyValueData) (N : Nat), ListsAt s conf.reversed (SubCovers p conf) all ∧
      ∀ sched, ∃ xs rest, all = xs ++ rest ∧ (∀ e ∈ xs, p.pre.length + p.sep.length ≤ e.key.length) ∧
        ((∃ fin, (p.browse conf sched s).1 =
            .items (xs.map fun e => .ok { e with key := e.key.drop (p.pre.length + p.sep.length) }) fin ∧
            (fin = true → rest = []) ∧ (N ≤ sched.count true → fin = true)) ∨
          (p.browse conf sched s).1 = .error (.panic "prefixed.rs:171 key.drain(..len_drain)") ∧
            ∃ e rest', rest = e :: rest' ∧ e.key.length < p.pre.length + p.sep.length) := by
  rcases hd.store with hbare | ⟨H, t, ht, hc, hcon⟩
  · have := hbare.1; omega
  obtain ⟨bc, hA, hS, hrev, hcov⟩ := mended (p.boundedConf conf)
  have hl := hd.lists.mpr (listing_isListing ht hcon hS)
  rw [boundedConf_reversed] at hrev
  refine ⟨_, t.cost, ⟨by rw [← hrev]; exact hl.1, fun e => (hl.2 e).trans (and_congr_right fun _ => (hcov _).trans (boundedConf_covers p conf _))⟩,
    fun sched => ?_⟩
  obtain ⟨fs, s1, h1, e1, hst⟩ := traverse_run ht hd.wf hc bc
  obtain ⟨fs', s1', h1', hdr⟩ := sub_collect_alike hA ht hd.wf hc sched
  rw [h1] at h1'
  injection h1' with h1' h1''
  injection h1' with h1'
  subst h1' h1''
  obtain ⟨xs, rest, ys, s2, _, ho, hy, hres⟩ := drive_run_err (c := s.core) (post := p.strip)
    (g := fun q => p.stripE (.ok (kvOf s.core q))) hS sched s1 fs _ _ e1.core hst e1.wf
    (fun q _ s' => by rw [p.strip_eq])
  obtain ⟨k1, k2⟩ := strip_all xs ys hy
  refine ⟨xs.map (kvOf s.core), rest.map (kvOf s.core), by rw [ho, List.map_append], k1, ?_⟩
  have hex : p.browse conf sched s = replyOf (p.collect sched conf) (fun r => .items r.1 r.2.isNone) s := rfl
  unfold replyOf at hex
  cases hcol : p.collect sched conf s with
  | mk o s3 =>
    rw [hcol] at hdr hex
    rcases hres with ⟨fin, h3, hfin⟩ | ⟨q, rest', e, h3, h4, h5⟩
    · rw [h3] at hdr
      injection hdr with hdr _
      cases o with
      | error e => cases hdr
      | ok o =>
        obtain ⟨o1, o2⟩ := o
        injection hdr with hdr
        injection hdr with g1 g2
        refine .inl ⟨o2.isNone, ?_, ?_, ?_⟩
        · rw [hex, ← k2, g1]
        · intro hf
          cases o2 with
          | some _ => cases hf
          | none =>
            subst g2
            have : rest = [] := hfin
            rw [this]; rfl
        · intro hcount
          cases o2 with
          | none => rfl
          | some _ =>
            subst g2
            obtain ⟨fuel', hst', hle⟩ := hfin
            have := hst'.pos
            omega
    · rw [h5] at hdr
      injection hdr with hdr _
      have hshort : ¬ p.pre.length + p.sep.length ≤ (kvOf s.core q).key.length ∧
          e = .panic "prefixed.rs:171 key.drain(..len_drain)" := by
        unfold Prefixed.stripE at h4
        simp only [] at h4
        split at h4
        · cases h4
        · rename_i hle
          injection h4 with h4
          exact ⟨hle, h4.symm⟩
      cases o with
      | ok o => cases hdr
      | error e' =>
        injection hdr with hdr
        refine .inr ⟨?_, kvOf s.core q, rest'.map (kvOf s.core), by rw [h3]; rfl, by omega⟩
        rw [hex, ← hdr, hshort.2]

theorem Prefixed.browse_ext {s : St} {d : Db} (h : Holds s d) (p : Prefixed) (conf : TraverseConfig) (sched : List Bool) :
    Ext s (p.browse conf sched s).2 := by
  have hx := p.collect_ext h sched conf
  show Ext s (replyOf (p.collect sched conf) _ s).2
  rw [replyOf_snd]
  exact hx

theorem doDeedVia_holds {s : St} {d : Db} (h : Holds s d) (x : Option Prefixed × Deed) : ∃ d', Holds (doDeedVia x s).2 d' := by
  obtain ⟨via, c⟩ := x
  cases via with
  | none =>
    cases c with
    | inl c => exact ⟨_, (exec_refines h c).2⟩
    | inr c => exact ⟨_, (browse_holds h c.1 c.2).1⟩
  | some p =>
    cases c with
    | inl c => exact ⟨_, execVia_holds h (some p, c)⟩
    | inr c => exact ⟨_, (p.browse_ext h c.1 c.2).holds h⟩

theorem deedsVia_holds : ∀ (xs : List (Option Prefixed × Deed)) {s : St} {d : Db}, Holds s d → ∃ d', Holds (doDeedsVia xs s) d' := by
  intro xs
  induction xs with
  | nil => intro s d h; exact ⟨d, h⟩
  | cons x xs ih =>
    intro s d h
    obtain ⟨d', h'⟩ := doDeedVia_holds h x
    exact ih h'

/-- Between two keys the right way round, or backwards, a traversal covers what is the sub-database's. -/
theorem subCovers_two {p : Prefixed} {conf : TraverseConfig} {lo hi : Bytes} (h1 : conf.minValue = .finite lo)
    (h2 : conf.maxValue = .finite hi) (h : conf.reversed = true ∨ ¬ Crossed conf) (k : Bytes) :
    SubCovers p conf k ↔ ∃ y, k = p.pre ++ p.sep ++ y ∧ InRange conf y := by
  constructor
  · rintro (hp | ⟨hr, hb⟩)
    · unfold Passes at hp
      rw [h1, h2] at hp
      obtain ⟨y, rfl⟩ := between_prefix (p.pre ++ p.sep) (hp.1.imp id And.right) (hp.2.imp id And.right)
      simp only [append_lt_iff, append_eq_iff] at hp
      refine ⟨y, rfl, ?_⟩
      unfold InRange
      rw [h1, h2]
      exact hp
    · unfold Begins at hb
      rw [h1] at hb
      refine ⟨lo, hb.2, ?_, ?_⟩
      · rw [h1]; exact .inr ⟨hb.1, rfl⟩
      · rcases h with h | h
        · rw [hr] at h; cases h
        · exact Classical.byContradiction fun hn => h ⟨lo, h1, hb.1, hn⟩
  · rintro ⟨y, rfl, hy⟩
    left
    unfold InRange at hy
    unfold Passes
    rw [h1, h2] at *
    simp only [append_lt_iff, append_eq_iff]
    exact hy

/-- Where a traversal covers just the stored keys of the sub-database that are in `P`, it yields these. -/
theorem sub_covers_lists {s : St} {d : Db} (hd : Holds s d) (hl : 2 ≤ s.core.length) (p : Prefixed) (conf : TraverseConfig)
    {P : Bytes → Prop} (hP : ∀ k, (exec (.get k) s).1 ≠ .got none → (SubCovers p conf k ↔ ∃ y, k = p.pre ++ p.sep ++ y ∧ P y)) :
    ∃ (full : List KeyValueData) (N : Nat), ((if conf.reversed then full.reverse else full).Pairwise (fun a b => a.key < b.key) ∧
        ∀ e : KeyValueData, e ∈ full ↔ (p.exec (.get e.key) s).1 = .got (some (e.seq, e.value)) ∧ P e.key) ∧
      ∀ sched, N ≤ sched.count true → (p.browse conf sched s).1 = .items (full.map .ok) true := by
  obtain ⟨all, N, ⟨ha, hm⟩, hx⟩ := sub_handmade_aux hd hl p conf
  let cut : KeyValueData → KeyValueData := fun e => { e with key := e.key.drop (p.pre.length + p.sep.length) }
  have hcut : ∀ e ∈ all, e.key = p.pre ++ p.sep ++ (cut e).key ∧ P (cut e).key := by
    intro e he
    obtain ⟨y, hy, hin⟩ := (hP e.key (by rw [((hm e).mp he).1]; simp)).mp ((hm e).mp he).2
    have : (cut e).key = y := by
      show e.key.drop (p.pre.length + p.sep.length) = y
      rw [hy, List.drop_append_of_le_length (by simp), List.drop_eq_nil_of_le (by simp), List.nil_append]
    rw [this]
    exact ⟨hy, hin⟩
  have hord : ∀ l : List KeyValueData, (∀ e ∈ l, e ∈ all) → l.Pairwise (fun a b => a.key < b.key) →
      (l.map cut).Pairwise (fun a b => a.key < b.key) := by
    intro l hsub hpw
    rw [List.pairwise_map]
    refine hpw.imp_of_mem ?_
    intro a b ma mb hlt
    rw [(hcut a (hsub a ma)).1, (hcut b (hsub b mb)).1, append_lt_iff] at hlt
    exact hlt
  refine ⟨all.map cut, N, ⟨?_, fun e => ?_⟩, fun sched hs => ?_⟩
  · cases hr : conf.reversed with
    | false => rw [hr] at ha; exact hord all (fun _ h => h) ha
    | true =>
      rw [hr] at ha
      simp only [if_true, ← List.map_reverse] at ha ⊢
      exact hord _ (fun e he => List.mem_reverse.mp he) ha
  · have hg : (p.exec (.get e.key) s).1 = (exec (.get (p.pre ++ p.sep ++ e.key)) s).1 := rfl
    rw [hg]
    constructor
    · intro he
      obtain ⟨e', he', rfl⟩ := List.mem_map.mp he
      obtain ⟨c1, c2⟩ := hcut e' he'
      refine ⟨?_, c2⟩
      rw [← c1]
      exact ((hm e').mp he').1
    · rintro ⟨g1, g2⟩
      refine List.mem_map.mpr ⟨⟨e.seq, p.pre ++ p.sep ++ e.key, e.value⟩, (hm _).mpr ⟨g1, (hP _ (by rw [g1]; simp)).mpr ⟨_, rfl, g2⟩⟩, ?_⟩
      show (⟨e.seq, (p.pre ++ p.sep ++ e.key).drop (p.pre.length + p.sep.length), e.value⟩ : KeyValueData) = e
      rw [List.drop_append_of_le_length (by simp), List.drop_eq_nil_of_le (by simp), List.nil_append]
  · obtain ⟨xs, rest, hall, hlong, ⟨fin, r1, r2, r3⟩ | ⟨_, e, rest', hr, hshort⟩⟩ := hx sched
    · have hf := r3 hs
      rw [r1, hf, hall, r2 hf, List.append_nil, List.map_map]
      rfl
    · exfalso
      have he : e ∈ all := by rw [hall, hr]; simp
      have := congrArg List.length (hcut e he).1
      simp only [List.length_append] at this
      omega

end Hyperbee
