import Mathlib.Data.Nat.Log
import Verif.Proof.Cost
import Verif.Props.Structure
/-!
# How much a lookup reads

Property C30.  `Blocks::get` puts every block it fetches into the cache, so what a call fetched is
what the cache holds afterwards and did not hold before.
-/

namespace Hyperbee

/-- C30.  `get` through any handle fetches at most one node and four keys per level, and one block
more. With no other blocks than these (and those it has in memory) it gives the same reply. -/
theorem get_fetches {s : St} (hs : Reachable s) {t : STree} (ht : StoresRoot s.core t) {h : Nat}
    (hh : h ∈ t.leafDepths) (k : Bytes) :
    ∃ qs : List Nat, qs.length ≤ 5 * h + 1 ∧
      (∀ q, (exec (.get k) s).2.cache q ≠ none → s.cache q ≠ none ∨ q ∈ qs) ∧
      ∀ io : Io, (∀ q ∈ qs, io.readable q = true) →
        (exec (.get k) { s with io := io }).1 = (exec (.get k) s).1 := by
  obtain ⟨d, hd⟩ := hs.holds
  obtain ⟨H, u, hu, rfl⟩ := hs.treeAt ht
  obtain rfl := spec_depths hu.good.shape h hh
  rcases hd.store with hb | ⟨H', u', hu', hc, _⟩
  · have := hb.1
    have := hu.two
    omega
  · obtain rfl := hu.unique hu'
    obtain ⟨qs, hl, hg⟩ := get_cost hu hd.wf hc k
    obtain ⟨s', hr, _⟩ := get_holds hd k
    have e1 : exec (.get k) s = (.got (d.map k), s') := by simp only [exec, replyOf, hr]
    refine ⟨qs, hl, by rw [e1]; rw [hr] at hg; exact hg, fun io hio => ?_⟩
    rw [e1]
    have h2 := (spares_looks.get_ k).same s _ s' io hr fun q hq => by
      rw [hr] at hg
      exact (hg q hq).imp id (hio q)
    simp only [exec, replyOf, h2]

/-- The levels of the tree and the number of its keys. -/
theorem depth_le_log {s : St} (hs : Reachable s) {t : STree} (ht : StoresRoot s.core t) :
    ∃ h, h ∈ t.leafDepths ∧ h ≤ Nat.log 5 ((t.inorder.length + 1) / 2) + 1 := by
  obtain ⟨H, u, hu, he⟩ := hs.treeAt ht
  have hdep : H + 1 ∈ t.leafDepths := by
    cases hx : t.leafDepths with
    | nil => exact absurd hx (by rw [he]; exact spec_depths_ne _ _)
    | cons x xs =>
      have := spec_depths (c := s.core) hu.good.shape x (by rw [← he, hx]; simp)
      rw [this]
      simp
  refine ⟨H + 1, hdep, ?_⟩
  have hlog : H ≤ Nat.log 5 ((t.inorder.length + 1) / 2) := by
    by_cases hne : t.inorder = []
    · rw [he, spec_inorder] at hne
      have h0 : H = 0 := by
        have h8 := hu.good
        cases H with
        | zero => rfl
        | succ H =>
          exfalso
          have hflat : u.flat = [] := by simpa using hne
          obtain ⟨r, ks, ts⟩ := u
          obtain ⟨_, hfill, _⟩ := h8
          have h1 := hfill.2.2 rfl (by omega)
          have hsub := keys_sublist ks ts
          rw [T.flat] at hflat
          rw [hflat] at hsub
          have := hsub.length_le
          simp at this
          simp [this] at h1
      omega
    · have hl := height_log hs ht hdep hne
      simp only [Nat.add_sub_cancel] at hl
      have hp : 5 ^ H ≤ (t.inorder.length + 1) / 2 := by
        rw [Nat.le_div_iff_mul_le (by omega)]
        omega
      have h0 : 0 < 5 ^ H := Nat.pos_of_ne_zero (by simp)
      exact Nat.le_log_of_pow_le (by omega) hp
  omega

/-- C30.  On a cold handle, the number of blocks fetched grows with the logarithm of the number of
keys: it is at most `5 * (log₅ ((n + 1) / 2) + 1) + 1` for `n` keys. -/
theorem get_fetches_log {s : St} (hs : Reachable s) {t : STree} (ht : StoresRoot s.core t) (k : Bytes) :
    ∃ qs : List Nat, qs.length ≤ 5 * (Nat.log 5 ((t.inorder.length + 1) / 2) + 1) + 1 ∧
      (∀ q, (exec (.get k) (St.open s.core)).2.cache q ≠ none → q ∈ qs) ∧
      ∀ io : Io, (∀ q ∈ qs, io.readable q = true) →
        (exec (.get k) { St.open s.core with io := io }).1 = (exec (.get k) s).1 := by
  have hs' : Reachable (St.open s.core) := by
    obtain ⟨cs, rfl⟩ := hs
    exact ⟨cs ++ [.reopen], by rw [runSt_snoc]; rfl⟩
  obtain ⟨d, hd⟩ := hs.holds
  obtain ⟨d', hd'⟩ := hs'.holds
  have hsame := (calls_same hd hd' rfl (.get k)).1
  obtain ⟨h, hdep, hlog⟩ := depth_le_log hs ht
  obtain ⟨qs, h1, h2, h3⟩ := get_fetches hs' (s := St.open s.core) ht hdep k
  refine ⟨qs, ?_, fun q hq => ?_, fun io hio => by rw [h3 io hio, hsame]⟩
  · omega
  · rcases h2 q hq with h | h
    · exact absurd rfl h
    · exact h

/-- Without a root nothing is fetched. -/
theorem get_fetches_none {s : St} (hs : Reachable s) (h : s.core.length ≤ 1) (k : Bytes) :
    (exec (.get k) s).2 = s := by
  obtain ⟨d, hd⟩ := hs.holds
  have hroot : getRoot false s = (.ok none, s) := by
    rcases Nat.lt_or_ge s.core.length 1 with hl | hl
    · exact getRoot_zero_false (by omega)
    · exact getRoot_one (by omega) false
  simp only [exec, replyOf]
  unfold get
  rw [bind_ok hroot]
  rfl

/-- The blocks a cold handle on the core of `s` has fetched to look up `k`. -/
def fetched (s : St) (k : Bytes) : List Nat :=
  (List.range s.core.length).filter fun q => ((exec (.get k) (St.open s.core)).2.cache q).isSome

/-- Sixty keys in three levels: the bound is 16 of the 61 blocks. -/
example : fetched (runSt ascending St.init) (demoKey 3) = [2, 3, 4, 5, 9, 10, 25, 49, 60] ∧
    fetched (runSt ascending St.init) (demoKey 24) = [25, 60] ∧
    5 * (Nat.log 5 ((60 + 1) / 2) + 1) + 1 = 16 := by decide +kernel

end Hyperbee
