import Verif.Model.Lossy
import Verif.Proof.Fault
import Verif.Proof.RelTop
/-!
# Appends that fail

A call of which an append fails has taken the steps before it, and the append itself if the block
was stored; it takes no others.
-/

namespace Hyperbee

theorem Atom.lose_none {x : Atom β} (h : x.appends = false) (l : Loss) : x.lose l = none := by
  induction x with
  | under a md x ih => exact ih h
  | coreAppend b => cases h
  | _ => rfl

theorem Atom.lose_some {x : Atom β} (h : x.appends = true) (s : St) :
    (∃ m, x.lose .refused = some m ∧ m s = (.error .core, s)) ∧
    ∃ m, x.lose .stored = some m ∧ m s = (.error .core, (x.run s).2) := by
  induction x with
  | under a md x ih => exact ih h
  | coreAppend b => exact ⟨⟨_, rfl, rfl⟩, _, rfl, rfl⟩
  | _ => cases h

/-- Where the program stands after `n` steps, it is about to append. -/
def Prog.Appending : Prog α → Prop
  | .step x _ => x.appends = true
  | _ => False

theorem lossy_cases {e : Prog α} {r0 : Except Err α} (he : ∀ ls t, e.lossy ls t = (r0, t)) {p : Prog α}
    (h : GivesUp e p) : ∀ (ls : List (Option Loss)) (s : St),
    p.lossy ls s = p.run s ∨
    (∃ n, (Prog.after n p s).1.Appending ∧
      (some Loss.refused ∈ ls ∧ p.lossy ls s = (r0, (Prog.after n p s).2) ∨
       some Loss.stored ∈ ls ∧ p.lossy ls s = (r0, (Prog.after (n + 1) p s).2))) := by
  induction p with
  | pure a => intro ls s; exact .inl rfl
  | throw e => intro ls s; exact .inl rfl
  | step x k ih =>
    intro ls s
    have hgo : ls.head?.join.bind x.lose = none → (Prog.step x k).lossy ls s = (k (x.run s).1).lossy ls.tail (x.run s).2 := by
      intro hn
      simp only [Prog.lossy, hn]
    by_cases hn : ls.head?.join.bind x.lose = none
    · rw [hgo hn]
      rcases ih (x.run s).1 (h.2 _) ls.tail (x.run s).2 with h1 | ⟨n, h1, h2⟩
      · exact .inl h1
      · refine .inr ⟨n + 1, h1, ?_⟩
        rcases h2 with ⟨h2, h3⟩ | ⟨h2, h3⟩
        · exact .inl ⟨List.mem_of_mem_tail h2, h3⟩
        · exact .inr ⟨List.mem_of_mem_tail h2, h3⟩
    · cases ls with
      | nil => exact absurd rfl hn
      | cons o ls =>
        cases o with
        | none => exact absurd rfl hn
        | some l =>
          have hx : x.appends = true := by
            cases hx : x.appends with
            | true => rfl
            | false => exact absurd (x.lose_none hx l) hn
          obtain ⟨⟨m1, e1, f1⟩, m2, e2, f2⟩ := x.lose_some hx s
          refine .inr ⟨0, hx, ?_⟩
          cases l with
          | refused =>
            refine .inl ⟨List.mem_cons_self, ?_⟩
            simp only [Prog.lossy, List.head?_cons, Option.join_some, Option.bind_some, e1, f1, List.tail_cons]
            rw [h.1 hx, he]
            rfl
          | stored =>
            refine .inr ⟨List.mem_cons_self, ?_⟩
            simp only [Prog.lossy, List.head?_cons, Option.join_some, Option.bind_some, e2, f2, List.tail_cons]
            rw [h.1 hx, he]
            rfl

theorem Prog.Appending.not_ended {p : Prog α} (h : p.Appending) : p.ended = false := by
  cases p with
  | step x k => rfl
  | _ => exact h.elim

theorem after_succ (n : Nat) (p : Prog α) (s : St) :
    Prog.after (n + 1) p s = (Prog.after n p s).1.next (Prog.after n p s).2 := by
  induction n generalizing p s with
  | zero => rfl
  | succ n ih => exact ih _ _

theorem after_add (n m : Nat) (p : Prog α) (s : St) :
    Prog.after (n + m) p s = Prog.after m (Prog.after n p s).1 (Prog.after n p s).2 := by
  induction n generalizing p s with
  | zero => rw [Nat.zero_add]; rfl
  | succ n ih => rw [Nat.add_right_comm]; exact ih _ _

theorem after_appending {p : Prog α} {n : Nat} {s : St} (h : (Prog.after n p s).1.Appending)
    (hok : s.io.appendOk = true) :
    ∃ b, (Prog.after (n + 1) p s).2.core = (Prog.after n p s).2.core ++ [b] := by
  rw [after_succ]
  have hi := (after_grows n p s).2
  generalize Prog.after n p s = q at h hi
  obtain ⟨q, t⟩ := q
  cases q with
  | step x k =>
    obtain ⟨_, b, e⟩ := Atom.appending (s := t) h (by rw [hi]; exact hok)
    exact ⟨b, e⟩
  | pure a => exact h.elim
  | throw e => exact h.elim

theorem ended_run {p : Prog α} (h : p.ended = true) (s : St) : (p.run s).2 = s := by
  cases p with
  | step x k => cases h
  | pure a => rfl
  | throw e => rfl

/-- The header block a put writes on an empty core. -/
theorem createHeader_empty {s : St} (h0 : s.core = []) (hok : s.io.appendOk = true) :
    exec (.createHeader none) s = (.created 1, { s with core := [headerBlock] }) := by
  have : createHeader none s = (.ok 1, { s with core := [headerBlock] }) := by
    unfold createHeader
    rw [bind_ok (show version s = (.ok s.core.length, s) from rfl), h0]
    simp [coreAppend, hok, h0, headerBlock_eq]
  simp [exec, replyOf, this]

/-- The first three steps of a put on an empty core. -/
theorem after_header {s : St} (h0 : s.core = []) (hok : s.io.appendOk = true) {c : Cmd}
    (hc : ∃ k v, c = .put k v ∨ ∃ cas, c = .putCas k v cas) :
    (Prog.after 1 (Prog.exec c) s).2 = s ∧ (Prog.after 2 (Prog.exec c) s).2 = s ∧
    (Prog.after 3 (Prog.exec c) s).2 = { s with core := [headerBlock] } := by
  obtain ⟨core, io, cache, heap⟩ := s
  cases h0
  have hb : (Hyperbee.coreAppend headerBlock { core := [], io := io, cache := cache, heap := heap }).2 =
      { core := [headerBlock], io := io, cache := cache, heap := heap } := by
    simp [coreAppend, show io.appendOk = true from hok]
  obtain ⟨k, v, rfl | ⟨cas, rfl⟩⟩ := hc
  · exact ⟨rfl, rfl, by rw [← hb, headerBlock_eq]; rfl⟩
  · exact ⟨rfl, rfl, by rw [← hb, headerBlock_eq]; rfl⟩

/-- A call that has appended and goes on is a put that has created the header. -/
theorem after_header_only {s : St} (h : Rooms s) (hok : s.io.appendOk = true) {c : Cmd} {n : Nat}
    (ha : (Prog.after n (Prog.exec c) s).1.Appending)
    (hn : (Prog.after (n + 1) (Prog.exec c) s).1.ended = false) :
    s.core = [] ∧ (∃ k v, c = .put k v ∨ ∃ cas, c = .putCas k v cas) ∧
    (Prog.after (n + 1) (Prog.exec c) s).2 = { s with core := [headerBlock] } := by
  obtain ⟨b, hb⟩ := after_appending ha hok
  have hg := ((after_grows n (Prog.exec c) s).1).length_le
  rcases after_exec h hok c (n + 1) hn with e | ⟨h0, hc, e⟩
  · rw [e] at hb
    rw [hb] at hg
    simp at hg
    omega
  · refine ⟨h0, hc, ?_⟩
    obtain ⟨e1, e2, e3⟩ := after_header h0 hok hc
    have hlen : (Prog.after n (Prog.exec c) s).2.core.length = 0 := by
      have := congrArg List.length (hb.symm.trans e)
      simpa using this
    rcases Nat.lt_or_ge n 3 with hlt | hge
    · have : n = 0 ∨ n = 1 ∨ n = 2 := by omega
      rcases this with rfl | rfl | rfl
      · rw [show (0 : Nat) + 1 = 1 from rfl, e1, h0] at e; cases e
      · rw [show (1 : Nat) + 1 = 2 from rfl, e2, h0] at e; cases e
      · exact e3
    · obtain ⟨m, rfl⟩ : ∃ m, n = 3 + m := ⟨n - 3, by omega⟩
      have : (Prog.after 3 (Prog.exec c) s).2.core <+: (Prog.after (3 + m) (Prog.exec c) s).2.core := by
        rw [after_add]
        exact (after_grows m _ _).1
      rw [e3] at this
      have := this.length_le
      simp only [List.length_singleton] at this
      omega

end Hyperbee
