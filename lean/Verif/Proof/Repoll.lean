import Verif.Proof.Poll
/-!
# Which keys the outermost node of a stream still has to visit
-/

namespace Hyperbee

/-- The key lies beyond the bound at which a traversal ends. -/
def PastEnd (conf : TraverseConfig) (k : Bytes) : Prop :=
  if conf.reversed then ¬ AboveMin conf.minValue conf.minInclusive k else ¬ BelowMax conf.maxValue conf.maxInclusive k

theorem inRange_iff (conf : TraverseConfig) (k : Bytes) : InRange conf k ↔ StartOK conf k ∧ ¬ PastEnd conf k := by
  unfold StartOK PastEnd InRange
  cases conf.reversed <;> simp [Classical.not_not, and_comm]

/-- The indices a frame has before it. -/
def upcoming (f : Frame) (is : List Nat) : List Nat :=
  match f.nextKey with
  | some (i, _) => (2 * i + 1) :: is
  | none => is

/-- Once the iterator is made, the frame has before it every key of its node past the end, and no key
before the start. -/
def Todo (c : List Bytes) (conf : TraverseConfig) (n : T) (f : Frame) : Prop :=
  ∀ is, f.iter = some is → ∀ i k, n.keys[i]? = some k →
    (PastEnd conf (keyOf c k) → 2 * i + 1 ∈ upcoming f is) ∧ (2 * i + 1 ∈ upcoming f is → StartOK conf (keyOf c k))

theorem Todo.same {c : List Bytes} {conf : TraverseConfig} {n : T} {f f' : Frame} (h : Todo c conf n f)
    (h1 : f'.iter = f.iter) (h2 : f'.nextKey = f.nextKey) : Todo c conf n f' := by
  intro is hi i k hk
  have := h is (by rw [← h1]; exact hi) i k hk
  unfold upcoming at this ⊢
  rw [h2]
  exact this

/-- A poll that does not end the stream. -/
theorem poll_todo {conf : TraverseConfig} (hS : conf.Sound) (hO : ∀ k, PastEnd conf k → StartOK conf k) {s : St} {f : Frame}
    {rest : List Frame} {n : T} {out : List Nat} {fuel : Nat} (h : Strm s conf (f :: rest) n out fuel) (hw : SWF s)
    (hT : Todo s.core conf n f) {ready : Bool} {r : PollR} {fs' : List Frame} {s' : St}
    (hp : poll ready (f :: rest) s = (.ok (r, fs'), s')) (hr : ∀ w, r ≠ .ready none w) :
    ∃ f' rest', fs' = f' :: rest' ∧ Todo s.core conf n f' := by
  cases h with
  | @setup _ h _ k v a h1 h2 h3 h4 h5 =>
    unfold poll at hp
    simp only [h2, h3] at hp
    unfold pollSetup at hp
    have hnil : ∀ f', f'.iter = none → Todo s.core conf n f' := fun f' he is hi => by rw [he] at hi; cases hi
    cases hn : f.nkc with
    | none =>
      rw [hn] at hp
      simp only [] at hp
      split at hp
      · cases hp; exact ⟨_, _, rfl, hnil _ h4⟩
      split at hp
      · cases hp; exact ⟨_, _, rfl, hnil _ h4⟩
      rw [bind_ok (readNode_some (v.heap a))] at hp
      cases hp; exact ⟨_, _, rfl, hnil _ h4⟩
    | some x =>
      rw [hn] at hp h5
      obtain ⟨x1, x2⟩ := x
      simp only [h4] at hp
      have hx : x1 = n.keys.length ∧ x2 = n.kids.length := by
        rcases h5 with ⟨_, _, h, _⟩ | ⟨_, _, h, _⟩ | ⟨_, h, _⟩ | ⟨_, h, _⟩
        · cases h
        · cases h
        · cases h; exact ⟨rfl, rfl⟩
        · cases h; exact ⟨rfl, rfl⟩
      obtain ⟨rfl, rfl⟩ := hx
      cases hf : f.iterFut with
      | none => rw [hf] at hp; cases hp; exact ⟨_, _, rfl, hnil _ rfl⟩
      | some done =>
        rw [hf] at hp
        cases done with
        | true => cases hp
        | false =>
          simp only [] at hp
          split at hp
          · cases hp; exact ⟨_, _, rfl, hnil _ h4⟩
          have hlen : n.node.keys.length = n.keys.length ∧ n.node.children.length = n.kids.length ∧ n.node.keys = n.keys := by
            cases n; simp [T.node, T.keys, T.kids]
          obtain ⟨is, s1, g1, e1, hwalk⟩ := makeIter_run hw (v.heap a) f.config (h1 ▸ hS) (ts := n.kids)
            (by cases n; simp [T.node, T.kids]) (by cases n; exact v.len) (by cases n; exact v.srt)
            (by cases n; exact v.srtKeys) (by cases n; exact v.dfdKeys)
          rw [hlen.1, hlen.2.1] at g1
          rw [hlen.2.2] at hwalk
          rw [bind_ok (tryResult_ok g1)] at hp
          cases hp
          refine ⟨_, _, rfl, ?_⟩
          intro is' hi i k hk
          cases hi
          simp only [upcoming, h2]
          rw [hwalk.start i k hk, h1]
          exact ⟨hO _, id⟩
  | @iter _ h _ is x v a h1 h2 h3 h4 h5 h6 =>
    unfold poll at hp
    simp only [h2, h3] at hp
    unfold pollSetup at hp
    obtain ⟨x1, x2⟩ := x
    simp only [h4, h5] at hp
    have hT' := hT is h5
    simp only [upcoming, h2] at hT'
    cases is with
    | nil => cases hp; exact absurd rfl (hr true)
    | cons j is =>
      simp only [] at hp
      split at hp
      · rename_i hj
        cases hp
        refine ⟨_, _, rfl, ?_⟩
        intro is' hi i k hk
        cases hi
        have := hT' i k hk
        simp only [upcoming, h2]
        have hne : 2 * i + 1 ≠ j := by omega
        simpa [hne] using this
      · rename_i hj
        cases hp
        refine ⟨_, _, rfl, ?_⟩
        intro is' hi i k hk
        cases hi
        have := hT' i k hk
        have hsh : j >>> 1 = j / 2 := by simp [Nat.shiftRight_succ]
        simp only [upcoming]
        rw [hsh, show 2 * (j / 2) + 1 = j by omega]
        exact this
  | @key _ h _ i is x v a h1 h2 h3 h4 h5 h6 =>
    unfold poll at hp
    simp only [h2, Bool.false_eq_true, if_false] at hp
    split at hp
    · cases hp; exact ⟨_, _, rfl, hT⟩
    have hv := h6.valid _ (List.mem_cons_self ..)
    rw [if_neg (by omega), show (2 * i + 1) / 2 = i by omega] at hv
    have hkeys : n.node.keys = n.keys := by cases n; rfl
    have hq : n.keys[i]? = some n.keys[i] := List.getElem?_eq_getElem hv
    obtain ⟨b, hb⟩ := v.dfdKeys n.keys[i] (List.getElem_mem hv)
    obtain ⟨s1, h7, e7⟩ := getKeyValue_run hw (v.heap a) (i := i) (q := n.keys[i]) (by rw [hkeys]; exact hq) hb
    rw [bind_ok (tryResult_ok h7)] at hp
    simp only [] at hp
    split at hp
    · cases hp; exact absurd rfl (hr true)
    · rename_i hin
      cases hp
      refine ⟨_, _, rfl, ?_⟩
      have hT' := hT is h5
      intro is' hi i' k hk
      simp only [] at hi
      rw [h5] at hi
      cases hi
      have := hT' i' k hk
      simp only [upcoming, h2] at this ⊢
      refine ⟨fun hpe => ?_, fun hm => this.2 (List.mem_cons_of_mem _ hm)⟩
      rcases List.mem_cons.mp (this.1 hpe) with e | h8
      · obtain rfl : i' = i := by omega
        rw [hq] at hk
        cases hk
        exfalso
        rw [h1] at hin
        have : InRange conf (keyOf s.core n.keys[i']) := (hS _).mp (by simpa using hin)
        exact ((inRange_iff _ _).mp this).2 hpe
      · exact h8
  | @child _ h _ t i is x v a h1 h2 h3 h4 h5 ht h6 =>
    unfold poll at hp
    simp only [h2, h3] at hp
    split at hp
    · cases hp; exact ⟨_, _, rfl, hT⟩
    simp only [bind, M.bind] at hp
    cases hg : tryResult (getChild f.root i) s with
    | mk res s1 =>
      rw [hg] at hp
      cases res with
      | error e => cases hp
      | ok res =>
        cases res with
        | ok c => cases hp; exact ⟨_, _, rfl, hT.same rfl h2.symm⟩
        | error e => cases hp; exact ⟨_, _, rfl, hT.same rfl h2.symm⟩
  | @sub _ c cs h _ t is out x fuel v a h1 h2 h3 h4 h5 hm h6 hs =>
    unfold poll at hp
    simp only [h2, h3] at hp
    simp only [bind, M.bind] at hp
    cases hg : poll ready (c :: cs) s with
    | mk res s1 =>
      rw [hg] at hp
      cases res with
      | error e => cases hp
      | ok p =>
        obtain ⟨p, fs1⟩ := p
        cases p with
        | pending _ _ => cases hp; exact ⟨_, _, rfl, hT⟩
        | ready it _ =>
          cases it with
          | none => cases hp; exact ⟨_, _, rfl, hT⟩
          | some it => cases hp; exact ⟨_, _, rfl, hT⟩

theorem drive_todo {conf : TraverseConfig} (hS : conf.Sound) (hO : ∀ k, PastEnd conf k → StartOK conf k) {n : T}
    {c : List Bytes} : ∀ (sched : List Bool) (s : St) (f : Frame) (rest : List Frame) (out : List Nat) (fuel : Nat),
    s.core = c → Strm s conf (f :: rest) n out fuel → SWF s → Todo c conf n f →
    ∀ {xs : List (Except Err KeyValueData)} {fs' : List Frame} {s' : St},
    drive pure sched (f :: rest) s = (.ok (xs, some fs'), s') →
    ∃ f' rest' out' fuel', fs' = f' :: rest' ∧ s'.core = c ∧ SWF s' ∧ Strm s' conf fs' n out' fuel' ∧ Todo c conf n f' := by
  intro sched
  induction sched with
  | nil =>
    intro s f rest out fuel hc h hw hT xs fs' s' hd
    cases hd
    exact ⟨f, rest, out, fuel, rfl, hc, hw, h, hT⟩
  | cons r rs ih =>
    intro s f rest out fuel hc h hw hT xs fs' s' hd
    obtain ⟨p, fs1, s1, h1, e1, hp⟩ := poll_run hS h hw r
    unfold drive at hd
    rw [bind_ok h1] at hd
    have hc1 : s1.core = c := by rw [e1.core, hc]
    cases p with
    | pending woken waiting =>
      obtain ⟨f1, rest1, rfl, hT1⟩ := poll_todo hS hO h hw (hc ▸ hT) h1 (fun w hh => by cases hh)
      rw [hc] at hT1
      simp only [] at hd
      have key : ∃ fuel', Strm s1 conf (f1 :: rest1) n out fuel' := by
        cases waiting with
        | true =>
          obtain ⟨_, hp⟩ := hp
          rw [if_pos rfl] at hp
          obtain ⟨_, h3, h4⟩ := hp
          rw [h3, h4]; exact ⟨fuel, h⟩
        | false =>
          obtain ⟨_, hp⟩ := hp
          rw [if_neg (by simp)] at hp
          obtain ⟨f', _, hst⟩ := hp
          exact ⟨f', hst⟩
      obtain ⟨fuel', hst⟩ := key
      exact ih s1 f1 rest1 out fuel' hc1 hst e1.wf hT1 hd
    | ready item woken =>
      cases item with
      | none => cases hd
      | some it =>
        obtain ⟨f1, rest1, rfl, hT1⟩ := poll_todo hS hO h hw (hc ▸ hT) h1 (fun w hh => by cases hh)
        rw [hc] at hT1
        obtain ⟨x, a⟩ := it
        obtain ⟨q, out', f', rfl, rfl, hlt, hst, _⟩ := hp
        simp only [] at hd
        rw [bind_ok (show (pure _ : M (Except Err KeyValueData)) s1 = (.ok _, s1) from rfl)] at hd
        simp only [bind, M.bind] at hd
        cases hdr : drive pure rs (f1 :: rest1) s1 with
        | mk res s2 =>
          rw [hdr] at hd
          cases res with
          | error e => cases hd
          | ok p =>
            obtain ⟨ys, fin⟩ := p
            cases hd
            exact ih s1 f1 rest1 out' f' hc1 hst e1.wf hT1 hdr

end Hyperbee
