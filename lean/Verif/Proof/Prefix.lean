import Verif.Proof.Step
/-!
# Prefixes of a core

Every prefix of the core of a history is the core of a shorter history.  With it, what holds of the
newest block of every reachable core holds of every block.
-/

namespace Hyperbee

theorem snocInd {α : Type} {P : List α → Prop} (l : List α) (nil : P [])
    (snoc : ∀ (l : List α) (a : α), P l → P (l ++ [a])) : P l := by
  rw [← List.reverse_reverse l]
  induction l.reverse with
  | nil => exact nil
  | cons a l ih => rw [List.reverse_cons]; exact snoc _ _ ih

/-- The writes of a history on an empty core. -/
def logOf (cs : List Cmd) : List Write := effects cs (runReplies cs St.init)

theorem runReplies_length : ∀ (cs : List Cmd) (s : St), (runReplies cs s).length = cs.length := by
  intro cs
  induction cs with
  | nil => intro s; rfl
  | cons c cs ih => intro s; exact congrArg (· + 1) (ih _)

theorem effects_append : ∀ (a : List Cmd) (ra : List Reply) (b : List Cmd) (rb : List Reply),
    ra.length = a.length → effects (a ++ b) (ra ++ rb) = effects a ra ++ effects b rb := by
  intro a
  induction a with
  | nil => intro ra b rb h; rw [List.eq_nil_of_length_eq_zero h]; rfl
  | cons c cs ih =>
    intro ra b rb h
    cases ra with
    | nil => simp at h
    | cons r rs => simp only [List.cons_append, effects, ih rs b rb (by simpa using h), List.append_assoc]

theorem logOf_snoc (cs : List Cmd) (c : Cmd) :
    logOf (cs ++ [c]) = logOf cs ++ (effect c (exec c (runSt cs St.init)).1).toList := by
  unfold logOf
  rw [runReplies_append, effects_append _ _ _ _ (runReplies_length _ _)]
  simp [runReplies, run, effects]

/-- The length of the core of a history and the number of its writes. -/
theorem logOf_length (cs : List Cmd) : (logOf cs).length = (runSt cs St.init).core.length - 1 := by
  have h := (run_refines cs Holds.init).2
  have hl := logged cs
  have hv : (Db.empty.after cs).version = (runSt cs St.init).core.length := h.ver
  by_cases he : (logOf cs).reverse = []
  · have h1 := hl.fresh he
    have : (logOf cs).length = 0 := by simpa using he
    omega
  · have h1 := hl.count he
    rw [List.length_reverse] at h1
    rw [← hv]
    exact Nat.eq_sub_of_add_eq h1.symm

theorem Step.core_cases {s : St} {c : Cmd} {r : Reply} {s' : St} (h : Step s c r s') :
    (s'.core = s.core ∧ effect c r = none) ∨
    (s.core = [] ∧ (∃ m, s'.core = [encodeHeader ⟨PROTOCOL, m⟩]) ∧ effect c r = none) ∨
    (∃ b, s'.core = s.core ++ [b] ∧ 1 ≤ s.core.length ∧ ∃ w, effect c r = some w) ∨
    (s.core = [] ∧ ∃ b, s'.core = [headerBlock, b] ∧ ∃ w, effect c r = some w) := by
  cases h with
  | same h e => exact .inl ⟨h, e⟩
  | header m h0 h e => exact .inr (.inl ⟨h0, ⟨m, h⟩, e⟩)
  | first k v t' h1 e w =>
    obtain ⟨ns, h2, _⟩ := w.core
    rcases ready_core s with hr | ⟨h0, hr⟩
    · have := St.ready_len h1
      rw [hr] at h2 this
      exact .inr (.inr (.inl ⟨_, h2, by omega, _, e⟩))
    · rw [hr] at h2
      exact .inr (.inr (.inr ⟨h0, _, h2, _, e⟩))
  | put k v H t H' t' m pre post ht e l w hH =>
    obtain ⟨ns, h2, _⟩ := w.core
    have := ht.two
    exact .inr (.inr (.inl ⟨_, h2, by omega, _, e⟩))
  | del k H t H' t' q pre post ht e l w hH =>
    obtain ⟨ns, h2, _⟩ := w.core
    have := ht.two
    exact .inr (.inr (.inl ⟨_, h2, by omega, _, e⟩))

theorem runSt_snoc (cs : List Cmd) (c : Cmd) (s : St) : runSt (cs ++ [c]) s = (exec c (runSt cs s)).2 := by
  rw [runSt_append]; rfl

theorem run_holds (cs : List Cmd) : Holds (runSt cs St.init) (Db.empty.after cs) := (run_refines cs Holds.init).2

theorem createHeader_init (m : Option Metadata) :
    (runSt [.createHeader m] St.init).core = [encodeHeader ⟨PROTOCOL, m⟩] ∧ logOf [.createHeader m] = [] := by
  have h := (createHeader_holds Holds.init m).1 rfl
  constructor
  · simp only [runSt, run, exec, replyOf, h]; rfl
  · simp only [logOf, runReplies, run, exec, replyOf, h]; rfl

/-- Every prefix of the core of a history is the core of a history, namely of one that made the
first writes of the given one. -/
theorem history_prefix (cs : List Cmd) : ∀ n, n ≤ (runSt cs St.init).core.length →
    ∃ cs', (runSt cs' St.init).core = (runSt cs St.init).core.take n ∧ logOf cs' = (logOf cs).take (n - 1) := by
  induction cs using snocInd with
  | nil => intro n _; exact ⟨[], by simp [runSt, run, St.init, St.open], by simp [logOf, effects]⟩
  | snoc cs c ih =>
    intro n hn
    have hlen := logOf_length cs
    rw [runSt_snoc] at hn ⊢
    rw [logOf_snoc]
    rcases (exec_step (run_holds cs) c).core_cases with ⟨h, e⟩ | ⟨h0, ⟨m, h⟩, e⟩ | ⟨b, h, h1, w, e⟩ | ⟨h0, b, h, w, e⟩
    · rw [h] at hn ⊢
      simpa [e] using ih n hn
    · have hnil : logOf cs = [] := by rw [h0] at hlen; simpa using hlen
      rw [h] at hn ⊢
      rw [e, hnil]
      by_cases hz : n = 0
      · exact ⟨[], by simp [hz, runSt, run, St.init, St.open], by simp [logOf, effects]⟩
      · have : n = 1 := by simp at hn; omega
        subst this
        exact ⟨[.createHeader m], (createHeader_init m).1, by simp [(createHeader_init m).2]⟩
    · rw [h] at hn ⊢
      by_cases hle : n ≤ (runSt cs St.init).core.length
      · obtain ⟨cs', p1, p2⟩ := ih n hle
        refine ⟨cs', by rw [p1, List.take_append_of_le_length hle], ?_⟩
        rw [p2, List.take_append_of_le_length (by omega)]
      · have hn' : n = (runSt cs St.init).core.length + 1 := by simp at hn; omega
        refine ⟨cs ++ [c], ?_, ?_⟩
        · rw [runSt_snoc, h, List.take_of_length_le (by simp; omega)]
        · rw [logOf_snoc, List.take_of_length_le]
          rw [e]; simp; omega
    · have hnil : logOf cs = [] := by rw [h0] at hlen; simpa using hlen
      rw [h] at hn ⊢
      rw [e, hnil]
      match n, hn with
      | 0, _ => exact ⟨[], by simp [runSt, run, St.init, St.open], by simp [logOf, effects]⟩
      | 1, _ =>
        exact ⟨[.createHeader none], by rw [(createHeader_init none).1]; rfl, by simp [(createHeader_init none).2]⟩
      | 2, _ =>
        refine ⟨cs ++ [c], ?_, ?_⟩
        · rw [runSt_snoc, h]; rfl
        · rw [logOf_snoc, hnil, e]; rfl
      | n + 3, hn => simp at hn

/-- The same without the log. -/
theorem Reachable.take {s : St} (h : Reachable s) (n : Nat) : ∃ s', Reachable s' ∧ s'.core = s.core.take n := by
  obtain ⟨cs, rfl⟩ := h
  by_cases hn : n ≤ (Hyperbee.runSt cs St.init).core.length
  · obtain ⟨cs', h1, _⟩ := history_prefix cs n hn
    exact ⟨_, ⟨cs', rfl⟩, h1⟩
  · exact ⟨_, ⟨cs, rfl⟩, by rw [List.take_of_length_le (by omega)]⟩

/-! ## The newest block -/

/-- The newest block of a core with a tree: the key written, the value, and the nodes, which are the
nodes of the tree that are new, in pre-order. -/
structure Newest (c : List Bytes) (H : Nat) (t : T) : Prop where
  tree : TreeAt c H t
  block : ∃ k v ns, c = c.take (c.length - 1) ++ [encodeBlock k v ns] ∧ ns = t.pre (c.length - 1) ∧ 0 < ns.length ∧
    (∀ (i : Nat) (nd : Node), ns[i]? = some nd → ∀ r ∈ nd.children, r.seq < c.length - 1 ∨
        (r.seq = c.length - 1 ∧ i < r.offset ∧ r.offset < ns.length))
  offs : t.offs (c.length - 1) = List.range (t.pre (c.length - 1)).length

theorem Wrote.newest {c : List Bytes} {io : Io} {key : Bytes} {value : Option Bytes} {old : Child → Prop}
    {s' : St} {H : Nat} {t' : T} {flat : List Nat} {mx : Nat} (w : Wrote c io key value old s' H t' flat mx) :
    Newest s'.core H t' := by
  obtain ⟨ns, h1, _, h2, h3, h4⟩ := w.core
  have hl : s'.core.length - 1 = c.length := by rw [h1]; simp
  refine ⟨w.tree, ?_, by rw [hl]; exact w.offs⟩
  refine ⟨key, value, ns, ?_, ?_, h2, ?_⟩
  · rw [hl]; rw [h1]; simp
  · rw [hl]; exact h4
  · rw [hl]; exact h3

theorem Step.newest {s : St} {c : Cmd} {r : Reply} {s' : St} (h : Step s c r s')
    (hs : 2 ≤ s.core.length → ∃ H t, Newest s.core H t) (h2 : 2 ≤ s'.core.length) : ∃ H t, Newest s'.core H t := by
  cases h with
  | same h e => rw [h] at h2 ⊢; exact hs h2
  | header m h0 h e => rw [h] at h2; simp at h2
  | first k v t' h1 e w => exact ⟨_, _, w.newest⟩
  | put k v H t H' t' m pre post ht e l w hH => exact ⟨_, _, w.newest⟩
  | del k H t H' t' q pre post ht e l w hH => exact ⟨_, _, w.newest⟩

theorem Reachable.newest {s : St} (h : Reachable s) (h2 : 2 ≤ s.core.length) : ∃ H t, Newest s.core H t := by
  obtain ⟨cs, rfl⟩ := h
  induction cs using snocInd with
  | nil => simp [Hyperbee.runSt, run, St.init, St.open] at h2
  | snoc cs c ih =>
    rw [runSt_snoc] at h2 ⊢
    exact (exec_step (run_holds cs) c).newest ih h2

end Hyperbee
