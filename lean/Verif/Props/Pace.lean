import Verif.Proof.Drop
import Verif.Proof.Pace
import Verif.Props.Steps
/-!
# Streams reach their next item after few polls, each of few steps (C99)
-/

namespace Hyperbee

theorem session_pace {β : Type} {post : Except Err KeyValueData → M β} (hpost : ∀ x s, (post x s).2 = s) {s : St}
    (hs : Reachable s) {t : STree} (ht : StoresRoot s.core t) {h : Nat} (hh : h ∈ t.leafDepths) (conf : TraverseConfig)
    {a b : List Bool} {xs ys : List β} {fs fs' : List Frame} {s1 s2 : St}
    (h1 : (traverse conf >>= drive post a) s = (.ok (xs, some fs), s1))
    (h2 : (traverse conf >>= drive post (a ++ b)) s = (.ok (ys, some fs'), s2)) :
    ∃ zs, ys = xs ++ zs ∧ fs'.length ≤ h ∧ b.count true < 8 * h - 2 + (8 * h - 5) * zs.length := by
  obtain ⟨d, hd⟩ := hs.holds
  obtain ⟨H, u, hu, rfl⟩ := hs.treeAt ht
  obtain rfl := spec_depths hu.good.shape h hh
  rcases hd.store with hb | ⟨H', u', hu', hco, _⟩
  · have := hb.1
    have := hu.two
    omega
  · obtain rfl := hu.unique hu'
    obtain ⟨fs0, s0, h0, e0, hp⟩ := traverse_pace hu hd.wf hco conf
    rw [bind_ok h0] at h1 h2
    obtain ⟨φ, hw1, hp1, hφ, _⟩ := drive_pace hpost a e0.wf hp (Nat.le_refl _) xs fs s1 h1
    obtain ⟨zs, h3, rfl⟩ := drive_append post b a h1 h2
    obtain ⟨φ', _, hp2, _, h4⟩ := drive_pace hpost b hw1 hp1 hφ zs fs' s2 h3
    refine ⟨zs, rfl, hp2.length, ?_⟩
    have := hp2.pos
    rw [show 8 * (H + 1) - 2 = 8 * H + 6 by omega, show 8 * (H + 1) - 5 = 8 * H + 3 by omega]
    omega

theorem session_steps {β : Type} {post : Except Err KeyValueData → Prog β} (hp0 : ∀ x s, (post x).steps s = 0)
    (hp1 : ∀ x s, ((post x).run s).2 = s) {s : St} (hs : Reachable s) (conf : TraverseConfig) (q : Bool)
    (sched : List Bool) : (Prog.traverse conf >>= Prog.drive post []).steps s ≤ 4 ∧
      (Prog.traverse conf >>= Prog.drive post (sched ++ [q])).steps s ≤ (Prog.traverse conf >>= Prog.drive post sched).steps s + 29 := by
  have hg : (Prog.traverse conf).steps s ≤ 4 := by
    unfold Prog.traverse
    rw [steps_bind_none]
    · exact (takes_getRoot false s).1
    · intro a s
      cases a <;> rfl
  obtain ⟨d, hd⟩ := hs.holds
  rw [Prog.steps_bind, Prog.steps_bind, Prog.steps_bind,
    show (Prog.traverse conf).run s = traverse conf s by rw [show (Prog.traverse conf).run = traverse conf from does_traverse conf]]
  rcases hd.store with hb | ⟨H', u', hu', hco, _⟩
  · obtain ⟨s', h1⟩ : ∃ s', traverse conf s = (.error .noRoot, s') := by
      refine ⟨s, ?_⟩
      unfold traverse
      rw [bind_ok (getRoot_bare hb.1)]
      rfl
    rw [h1]
    dsimp only
    omega
  · obtain ⟨fs0, s1, h1, e1, hp⟩ := traverse_pace hu' hd.wf hco conf
    rw [h1]
    have := drive_steps_snoc hp0 hp1 q sched e1.wf hp
    dsimp only
    refine ⟨?_, by omega⟩
    show _ + 0 ≤ 4
    omega

theorem strip_stays (p : Prefixed) (x : Except Err KeyValueData) (s : St) : (p.strip x s).2 = s := by
  rw [Prefixed.strip_eq]

theorem strip_steps (p : Prefixed) (x : Except Err KeyValueData) (s : St) : (Prog.strip p x).steps s = 0 := by
  cases x with
  | error e => rfl
  | ok x => unfold Prog.strip; dsimp only; split <;> rfl

/-! ## C99 -/

/-- Let the tree have `h` levels, and let a stream with any configuration, built or made by hand, have yielded
`xs` after the polls `a`.  If it has not ended after further polls `b`, it has yielded `zs` since, and fewer
than `8 * h - 2 + (8 * h - 5) * zs.length` of the polls `b` found their future ready.  It never consists of more
than `h` streams one inside the other. -/
theorem traversal_pace {s : St} (hs : Reachable s) {t : STree} (ht : StoresRoot s.core t) {h : Nat}
    (hh : h ∈ t.leafDepths) (conf : TraverseConfig) {a b : List Bool} {xs ys : List (Except Err KeyValueData)}
    {fs fs' : List Frame} {s1 s2 : St} (h1 : collect a conf s = (.ok (xs, some fs), s1))
    (h2 : collect (a ++ b) conf s = (.ok (ys, some fs'), s2)) :
    ∃ zs, ys = xs ++ zs ∧ fs'.length ≤ h ∧ b.count true < 8 * h - 2 + (8 * h - 5) * zs.length :=
  session_pace (fun _ _ => rfl) hs ht hh conf h1 h2

/-- The same through a sub-database. -/
theorem traversal_pace_sub {s : St} (hs : Reachable s) {t : STree} (ht : StoresRoot s.core t) {h : Nat}
    (hh : h ∈ t.leafDepths) (p : Prefixed) (conf : TraverseConfig) {a b : List Bool} {xs ys : List (Except Err KeyValueData)}
    {fs fs' : List Frame} {s1 s2 : St} (h1 : p.collect a conf s = (.ok (xs, some fs), s1))
    (h2 : p.collect (a ++ b) conf s = (.ok (ys, some fs'), s2)) :
    ∃ zs, ys = xs ++ zs ∧ fs'.length ≤ h ∧ b.count true < 8 * h - 2 + (8 * h - 5) * zs.length :=
  session_pace (strip_stays p) hs ht hh _ h1 h2

/-- So wherever a stream stands, `8 * (log₅ ((n + 1) / 2) + 1)` polls that find their future ready make it yield
or end, with `n` keys stored. -/
theorem next_item_soon {s : St} (hs : Reachable s) {t : STree} (ht : StoresRoot s.core t) (conf : TraverseConfig)
    {a b : List Bool} {xs ys : List (Except Err KeyValueData)} {fs fs' : List Frame} {s1 s2 : St}
    (h1 : collect a conf s = (.ok (xs, some fs), s1)) (h2 : collect (a ++ b) conf s = (.ok (ys, some fs'), s2))
    (hb : 8 * (Nat.log 5 ((t.inorder.length + 1) / 2) + 1) ≤ b.count true) : xs.length < ys.length := by
  obtain ⟨h, hh, hle⟩ := depth_le_log hs ht
  obtain ⟨zs, rfl, _, h3⟩ := traversal_pace hs ht hh conf h1 h2
  rw [List.length_append]
  cases zs with
  | nil => simp only [List.length_nil, Nat.mul_zero] at h3; omega
  | cons z zs => simp

/-- Making the stream takes four steps at most, and each poll of it twenty-nine at most, however many entries
there are, on the database or on a sub-database. -/
theorem traversal_steps {s : St} (hs : Reachable s) (o : Option Prefixed) (b : TraverseConfigBuilder) (sched : List Bool)
    (q : Bool) : (Prog.execVia (o, .traverse b [])).steps s ≤ 4 ∧
      (Prog.execVia (o, .traverse b (sched ++ [q]))).steps s ≤ (Prog.execVia (o, .traverse b sched)).steps s + 29 := by
  cases o with
  | none =>
    have key : ∀ sched, (Prog.execVia (none, .traverse b sched)).steps s =
        match b.build with
        | .error _ => 0
        | .ok conf => (Prog.traverse conf >>= Prog.drive Pure.pure sched).steps s := by
      intro sched
      show (Prog.replyOf _ (Prog.traverseSession b sched)).steps s = _
      rw [steps_replyOf]
      unfold Prog.traverseSession
      cases b.build with
      | error e => rfl
      | ok conf =>
        dsimp only
        rw [steps_bind_none _ (by rintro ⟨xs, fin⟩ s; rfl)]
        rfl
    rw [key, key, key]
    cases b.build with
    | error e => exact ⟨Nat.zero_le _, Nat.zero_le _⟩
    | ok conf => exact session_steps (fun _ _ => rfl) (fun _ _ => rfl) hs conf q sched
  | some p =>
    have key : ∀ sched, (Prog.execVia (some p, .traverse b sched)).steps s =
        match b.build with
        | .error _ => 0
        | .ok conf => (Prog.traverse (p.boundedConf conf) >>= Prog.drive (Prog.strip p) sched).steps s := by
      intro sched
      show (Prog.replyOf _ (Prog.subTraverse p b sched)).steps s = _
      rw [steps_replyOf]
      unfold Prog.subTraverse
      cases b.build with
      | error e => rfl
      | ok conf =>
        dsimp only
        rw [Prog.steps_bind, Prog.steps_bind]
        congr 1
        split
        · rw [steps_bind_none _ (by rintro ⟨xs, fin⟩ s; rfl)]
        · rfl
    rw [key, key, key]
    cases b.build with
    | error e => exact ⟨Nat.zero_le _, Nat.zero_le _⟩
    | ok conf =>
      exact session_steps (strip_steps p)
        (fun x s => by rw [show (Prog.strip p x).run = p.strip x from does_strip p x]; exact strip_stays p x s) hs _ q sched

/-- What a stream on sixty keys in three levels has done after so many polls: the items, and how many streams it
consists of while it has not ended.  The bound is 22 for an item, and 19 for each that follows. -/
def paceOf (conf : TraverseConfig) (n : Nat) : Option (Nat × Option Nat) :=
  match (collect (List.replicate n true) conf (runSt ascending St.init)).1 with
  | .ok (xs, fs) => some (xs.length, fs.map List.length)
  | .error _ => none

/-- An interval between two neighbours, in a leaf: ended after twenty polls. -/
example : ([19, 20].map (paceOf ⟨.finite (demoKey 23 ++ [0]), true, .finite (demoKey 23 ++ [1]), true, false⟩)) =
    [some (0, some 1), some (0, none)] := by decide +kernel

/-- All of it: the first item after eighteen polls, the fifth after twenty-seven, from the node above. -/
example : ([17, 18, 20, 24, 25, 26, 27].map (paceOf ⟨.finite (demoKey 0), true, .finite (demoKey 60), true, false⟩)) =
    [some (0, some 3), some (1, some 3), some (2, some 3), some (4, some 3), some (4, some 2), some (4, some 2), some (5, some 2)] := by
  decide +kernel

/-- The steps of the first polls of a stream through a sub-database. -/
example : ((List.range 24).map fun n => (Prog.execVia (some ⟨[], []⟩, .traverse {} (List.replicate (n + 1) true))).steps (runSt ascending St.init) -
    (Prog.execVia (some ⟨[], []⟩, .traverse {} (List.replicate n true))).steps (runSt ascending St.init)) =
    [0, 2, 0, 4, 0, 2, 0, 2, 0, 7, 0, 2, 0, 2, 0, 7, 0, 3, 0, 3, 0, 3, 0, 0] := by
  decide +kernel

end Hyperbee
