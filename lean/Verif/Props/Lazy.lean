import Verif.Proof.CostWrite
import Verif.Proof.Lazy
import Verif.Proof.Space
import Verif.Proof.Thin
import Verif.Props.Codec
import Verif.Props.Cost
import Verif.Props.Traversal
/-!
# How much writes and traversals read

Property C75.  As in Props/Cost.lean, what a call fetched is what the cache holds afterwards and did not
hold before; and each theorem says that with these blocks alone the call returns the same.
-/

namespace Hyperbee

/-- The blocks in `qs` are all that the call `c` fetches, and with no others it returns the same and
appends the same. -/
def FetchesOnly (s : St) (c : Cmd) (qs : List Nat) : Prop :=
  (∀ q, (exec c s).2.cache q ≠ none → s.cache q ≠ none ∨ q ∈ qs) ∧
  ∀ io : Io, io.appendOk = true → io.readable 0 = true → (∀ q ∈ qs, io.readable q = true) →
    (exec c { s with io := io }).1 = (exec c s).1 ∧ (exec c { s with io := io }).2.core = (exec c s).2.core

/-- The number of levels is at most logarithmic in the number of keys. -/
theorem levels_log {s : St} (hs : Reachable s) {t : STree} (ht : StoresRoot s.core t) {h : Nat}
    (hh : h ∈ t.leafDepths) : h ≤ Nat.log 5 ((t.inorder.length + 1) / 2) + 1 := by
  obtain ⟨H, u, hu, he⟩ := hs.treeAt ht
  have hH : h = H + 1 := by rw [he] at hh; exact spec_depths hu.good.shape h hh
  suffices H ≤ Nat.log 5 ((t.inorder.length + 1) / 2) by omega
  by_cases hne : t.inorder = []
  · rw [he, spec_inorder] at hne
    have h0 : H = 0 := by
      have h8 := hu.good
      cases H with
      | zero => rfl
      | succ H =>
        exfalso
        have hflat : u.flat = [] := by simpa using hne
        obtain ⟨r, ks, ts⟩ := u
        obtain ⟨_, hfill, _⟩ := h8
        have h1 := hfill.2.2 rfl (by omega)
        have hsub := keys_sublist ks ts
        rw [T.flat] at hflat
        rw [hflat] at hsub
        have := hsub.length_le
        simp at this
        simp [this] at h1
    omega
  · have hl := height_log hs ht hh hne
    rw [hH, Nat.add_sub_cancel] at hl
    have hp : 5 ^ H ≤ (t.inorder.length + 1) / 2 := by
      rw [Nat.le_div_iff_mul_le (by omega)]
      omega
    have h0 : 0 < 5 ^ H := Nat.pos_of_ne_zero (by simp)
    exact Nat.le_log_of_pow_le (by omega) hp

/-- The tree of a reachable state, as the proofs about costs want it. -/
theorem Reachable.costs {s : St} (hs : Reachable s) {t : STree} (ht : StoresRoot s.core t) {h : Nat}
    (hh : h ∈ t.leafDepths) : ∃ H u, TreeAt s.core H u ∧ SWF s ∧ Coh s (· ∈ u.refs) ∧ h = H + 1 := by
  obtain ⟨d, hd⟩ := hs.holds
  obtain ⟨H, u, hu, rfl⟩ := hs.treeAt ht
  rcases hd.store with hb | ⟨H', u', hu', hc, _⟩
  · have := hb.1
    have := hu.two
    omega
  · obtain rfl := hu.unique hu'
    exact ⟨H, u, hu, hd.wf, hc, spec_depths hu.good.shape h hh⟩

/-! ## Writes -/

theorem spends_exec {α : Type} {m : M α} (hm : Spends m) {f : α → Reply} {s : St} (hok : ∀ e, (replyOf m f s).1 ≠ .error e)
    {io : Io} (hio : io.appendOk = s.io.appendOk)
    (hr : ∀ q, (m s).2.cache q ≠ none → s.cache q ≠ none ∨ io.readable q = true) :
    (replyOf m f { s with io := io }).1 = (replyOf m f s).1 ∧
      (replyOf m f { s with io := io }).2.core = (replyOf m f s).2.core := by
  unfold replyOf at hok ⊢
  cases h : m s with
  | mk r t =>
    rw [h] at hr hok
    cases r with
    | error e => exact absurd rfl (hok e)
    | ok a =>
      rw [hm.same s a t io h hio hr]
      exact ⟨rfl, rfl⟩

theorem write_only {α : Type} {m : M α} (hm : Spends m) {f : α → Reply} {s : St} {c : Cmd}
    (he : ∀ s, exec c s = replyOf m f s) (hok : ∀ e, (exec c s).1 ≠ .error e) (hio : s.io.appendOk = true) {b : Nat}
    (hg : Grown b s (m s).2) : ∃ qs : List Nat, qs.length ≤ b ∧ FetchesOnly s c qs := by
  obtain ⟨qs, hl, hq⟩ := hg
  refine ⟨qs, hl, ?_, fun io h1 h2 h3 => ?_⟩
  · rw [he, replyOf_state]; exact hq
  · rw [he, he]
    rw [he] at hok
    exact spends_exec hm hok (h1.trans hio.symm) fun q hq' => (hq q hq').imp id (h3 q)

theorem Grown.frees {α β : Type} {m : M α} {f : α → M β} {b : Nat} {s : St} (h : Grown b s (m s).2)
    (hf : ∀ a, Frees (f a)) : Grown b s ((m >>= f) s).2 := by
  rw [bind_run]
  cases hr : m s with
  | mk r t =>
    rw [hr] at h
    cases r with
    | error e => exact h
    | ok a => exact (h.trans ((hf a).costs t)).mono (by omega)

/-- C75.  A put, plain or compare-and-swap, fetches at most one node and four keys per level, and one
block more. -/
theorem put_fetches {s : St} (hs : Reachable s) {t : STree} (ht : StoresRoot s.core t) {h : Nat}
    (hh : h ∈ t.leafDepths) (k : Bytes) (v : Option Bytes) (cas : Option KeyValueData → KeyValueData → Bool) :
    (∃ qs : List Nat, qs.length ≤ 5 * h + 1 ∧ FetchesOnly s (.put k v) qs) ∧
    ∃ qs : List Nat, qs.length ≤ 5 * h + 1 ∧ FetchesOnly s (.putCas k v cas) qs := by
  obtain ⟨H, u, hu, hw, hc, rfl⟩ := hs.costs ht hh
  obtain ⟨d, hd⟩ := hs.holds
  constructor
  · have hr := (exec_refines hd (.put k v)).1
    refine write_only (spends_acts.put_ k v) (c := .put k v) (fun _ => rfl) (fun e he => ?_) hd.ok ?_
    · rw [he] at hr; cases hr
    · refine Grown.frees ((put_cost hu hw hc k v _).mono (by omega)) fun a => ?_
      frees []
  · have hr := (exec_refines hd (.putCas k v cas)).1
    refine write_only (spends_acts.putCAS_ k v cas) (c := .putCas k v cas) (fun _ => rfl) (fun e he => ?_) hd.ok
      ((put_cost hu hw hc k v cas).mono (by omega))
    rw [he] at hr; cases hr

/-- C75.  A deletion, plain or compare-and-swap, fetches at most nineteen blocks per level. -/
theorem del_fetches {s : St} (hs : Reachable s) {t : STree} (ht : StoresRoot s.core t) {h : Nat}
    (hh : h ∈ t.leafDepths) (k : Bytes) (cas : KeyValueData → Bool) :
    (∃ qs : List Nat, qs.length ≤ 19 * (h - 1) + 7 ∧ FetchesOnly s (.del k) qs) ∧
    ∃ qs : List Nat, qs.length ≤ 19 * (h - 1) + 7 ∧ FetchesOnly s (.delCas k cas) qs := by
  obtain ⟨H, u, hu, hw, hc, rfl⟩ := hs.costs ht hh
  obtain ⟨d, hd⟩ := hs.holds
  constructor
  · have hr := (exec_refines hd (.del k)).1
    refine write_only (spends_acts.del_ k) (c := .del k) (fun _ => rfl) (fun e he => ?_) hd.ok ?_
    · rw [he] at hr; cases hr
    · refine Grown.frees ((del_cost hu hw hc k _).mono (by omega)) fun a => ?_
      frees []
  · have hr := (exec_refines hd (.delCas k cas)).1
    refine write_only (spends_acts.delCAS_ k cas) (c := .delCas k cas) (fun _ => rfl) (fun e he => ?_) hd.ok
      ((del_cost hu hw hc k cas).mono (by omega))
    rw [he] at hr; cases hr

/-! ## Traversals -/

/-- C75.  A traversal, in whatever interval and direction and however it is polled, has fetched at most
twelve blocks per level below the root, six more, and three per item that it has yielded. -/
theorem traverse_fetches {s : St} (hs : Reachable s) {t : STree} (ht : StoresRoot s.core t) {h : Nat}
    (hh : h ∈ t.leafDepths) {b : TraverseConfigBuilder} {conf : TraverseConfig} (hb : b.build = .ok conf)
    (sched : List Bool) : ∃ xs fin, (exec (.traverse b sched) s).1 = .items xs fin ∧
      ∃ qs : List Nat, qs.length ≤ 12 * (h - 1) + 6 + 3 * xs.length ∧ FetchesOnly s (.traverse b sched) qs := by
  obtain ⟨H, u, hu, hw, hc, rfl⟩ := hs.costs ht hh
  obtain ⟨xs, fin, s', g, h1, ⟨qs, hl, hq⟩, hle⟩ := collect_pay hu hw hc (build_sound hb) (.inl ⟨rfl, rfl⟩) sched
  have hsess : traverseSession b sched s = (.ok (xs, fin.isNone), s') := by
    unfold traverseSession
    rw [hb]
    simp only []
    rw [bind_ok h1]
    rfl
  refine ⟨xs, fin.isNone, by simp only [exec, replyOf, hsess], qs, by omega, ?_, fun io _ h0 hio => ?_⟩
  · simp only [exec, replyOf, hsess]; exact hq
  · have := (thin_reads.traverseSession_ b sched).same s io hw.rd (fun q hl hn => ?_) (fun q hq' => ?_)
    · simp only [exec, replyOf, this, hsess]
      exact ⟨trivial, trivial⟩
    · rcases Nat.eq_zero_or_pos q with rfl | hpos
      · exact h0
      · obtain ⟨k, v, ns, e⟩ := hs.encoded hpos hl
        simp [blockAt, e, blockOf_encodeBlock] at hn
    · rw [hsess] at hq'
      exact (hq q hq').imp id (hio q)

/-- C75.  A traversal that has not ended has been polled, with the read it waited for being ready, at
most sixteen times per level below the root, six times more, and four times per item: it ends after a
number of polls that depends on the height of the tree and on the size of the interval, not on what
else is stored. -/
theorem traverse_polls {s : St} (hs : Reachable s) {t : STree} (ht : StoresRoot s.core t) {h : Nat}
    (hh : h ∈ t.leafDepths) {b : TraverseConfigBuilder} {conf : TraverseConfig} (hb : b.build = .ok conf)
    (sched : List Bool) : ∃ xs fin, (exec (.traverse b sched) s).1 = .items xs fin ∧
      (fin = false → sched.count true ≤ 16 * (h - 1) + 6 + 4 * xs.length) ∧
      ∀ full, Lists s conf full → 16 * (h - 1) + 6 + 4 * full.length < sched.count true →
        fin = true ∧ xs = full.map .ok := by
  obtain ⟨H, u, hu, hw, hc, rfl⟩ := hs.costs ht hh
  obtain ⟨xs, fin, s', g, h1, ⟨qs, hl, hq⟩, hle⟩ := collect_pay hu hw hc (build_sound hb) (.inr ⟨rfl, rfl⟩) sched
  have hsess : traverseSession b sched s = (.ok (xs, fin.isNone), s') := by
    unfold traverseSession
    rw [hb]
    simp only []
    rw [bind_ok h1]
    rfl
  have hex : (exec (.traverse b sched) s).1 = .items xs fin.isNone := by simp only [exec, replyOf, hsess]
  have hcount : fin.isNone = false → sched.count true ≤ 16 * H + 6 + 4 * xs.length := by
    intro hf
    cases fin with
    | none => cases hf
    | some fs => simp at hle; omega
  refine ⟨xs, fin.isNone, hex, hcount, fun full hfull hlt => ?_⟩
  obtain ⟨all, full', _, hl', htr⟩ := traversal hs hu.two hb
  obtain rfl := hl'.unique hfull
  obtain ⟨ys, fin', hy, hp, hend, _⟩ := htr sched
  rw [hex] at hy
  injection hy with hx hf
  have hf1 : fin.isNone = true := by
    cases hn : fin.isNone with
    | true => rfl
    | false =>
      have := hcount hn
      have := hp.length_le
      rw [hx, List.length_map] at *
      omega
  exact ⟨hf1, by rw [hx, hend (hf ▸ hf1)]⟩

/-- C75.  The first `n` items of an interval of a database with `m` entries cost at most
`12 * log₅ ((m + 1) / 2) + 6 + 3 * n` fetched blocks. -/
theorem page_fetches {s : St} (hs : Reachable s) {t : STree} (ht : StoresRoot s.core t) {b : TraverseConfigBuilder}
    {conf : TraverseConfig} (hb : b.build = .ok conf) (sched : List Bool) :
    ∃ xs fin, (exec (.traverse b sched) s).1 = .items xs fin ∧
      ∃ qs : List Nat, qs.length ≤ 12 * Nat.log 5 ((t.inorder.length + 1) / 2) + 6 + 3 * xs.length ∧
        FetchesOnly s (.traverse b sched) qs := by
  cases hx : t.leafDepths with
  | nil =>
    obtain ⟨H, u, hu, he⟩ := hs.treeAt ht
    exact absurd hx (by rw [he]; exact spec_depths_ne _ _)
  | cons h hs' =>
    have hh : h ∈ t.leafDepths := by rw [hx]; simp
    obtain ⟨xs, fin, h1, qs, h2, h3⟩ := traverse_fetches hs ht hh hb sched
    have := levels_log hs ht hh
    exact ⟨xs, fin, h1, qs, by omega, h3⟩

/-- The blocks a cold handle on the core of `s` has fetched during a call. -/
def fetchedBy (s : St) (c : Cmd) : List Nat :=
  (List.range s.core.length).filter fun q => ((exec c (St.open s.core)).2.cache q).isSome

/-- Sixty keys in three levels, in 61 blocks.  The bounds are 16 for a put, 45 for a deletion, and 39 for three
items of a traversal. -/
example : fetchedBy (runSt ascending St.init) (.put (demoKey 3) none) = [2, 3, 4, 5, 9, 10, 25, 49, 60] ∧
    fetchedBy (runSt ascending St.init) (.del (demoKey 24)) = [10, 15, 20, 22, 23, 24, 25, 26, 27, 29, 30, 34, 40, 49, 60] ∧
    fetchedBy (runSt ascending St.init) (.traverse { minValue := some (.finite (demoKey 30)) } (List.replicate 22 true))
      = [25, 30, 31, 32, 33, 35, 39, 40, 60] := by decide +kernel

/-- Three of the sixty: ended after at most 16 * 2 + 6 + 4 * 3 + 1 polls. -/
example : ((exec (.traverse { minValue := some (.finite (demoKey 30)), maxValue := some (.finite (demoKey 32)) }
    (List.replicate 51 true)) (runSt ascending St.init)).1 matches .items [.ok _, .ok _, .ok _] true) = true := by
  decide +kernel

end Hyperbee
