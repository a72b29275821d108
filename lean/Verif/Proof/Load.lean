import Verif.Proof.Readers
import Verif.Proof.Commit
import Verif.Proof.Fault
import Verif.Model.Crowd
/-!
# Programs that only read

Whatever a reading program meets, the only thing it does to the handle is to load blocks of the core
and to file them in the cache.
-/

namespace Hyperbee

/-- A family of conditions on a handle, for the nodes loaded so far, that survives the loading of
blocks.  `Open`: the blocks that may be missing in the cache.  With `strict`, only as long as no
block is filed that is in the cache already. -/
structure Files (base : Nat) (Open : Nat → Prop) (strict : Bool) (K : Names → St → Prop) : Prop where
  rd : ∀ {Γ : Names} {s : St}, K Γ s → ∀ q, s.io.readable q = true
  miss : ∀ {Γ : Names} {s : St} {q : Nat}, K Γ s → s.cache q = none → Open q
  grow : ∀ {Γ : Names} {s : St}, K Γ s → ∀ xs : List Node, K Γ { s with heap := s.heap ++ xs }
  load : ∀ {Γ : Names} {s : St} {q : Nat} {b : Blk}, K Γ s → Open q → blockAt s.core q = some b →
    Γ.le (Γ.load s.heap.length b.nodes.length fun j => base + Nat.pair q j) ∧
    K (Γ.load s.heap.length b.nodes.length fun j => base + Nat.pair q j) { s with heap := s.heap ++ b.nodes }
  file : ∀ {Γ : Names} {s : St} {q : Nat} {b : Blk} {e : BlockEntry}, K Γ s → Open q → blockAt s.core q = some b →
    ERel Γ e ⟨(List.range b.nodes.length).map fun j => base + Nat.pair q j, b.key, b.value⟩ →
    (strict = true → s.cache q = none) → K Γ { s with cache := cacheInsert q e s.cache }

/-- The program only loads what the core holds. -/
def Fetching (base : Nat) (Open : Nat → Prop) : Prog α → Names → List Bytes → Prop
  | .pure _, _, _ => True
  | .throw _, _, _ => True
  | .step x k, Γ, C => ∀ strict K, Files base Open strict K → ∀ Γg s, Γ.le Γg → C <+: s.core → K Γg s →
      (strict = true → ∀ q, x.files = some q → s.cache q = none) →
      ∃ Γg', Γg.le Γg' ∧ K Γg' (x.run s).2 ∧ (x.run s).2.core = s.core ∧
        Fetching base Open (k (x.run s).1) Γg' s.core

section

variable {base : Nat} {Open : Nat → Prop}

theorem Fetching.mono {p : Prog α} {Γ Γ' : Names} {C C' : List Bytes} (h : Fetching base Open p Γ C)
    (hl : Γ.le Γ') (hC : C <+: C') : Fetching base Open p Γ' C' := by
  cases p with
  | pure a => trivial
  | throw e => trivial
  | step x k => exact fun strict K hK Γg s hg hc => h strict K hK Γg s (hl.trans hg) (hC.trans hc)

theorem Fetching.bind {p : Prog α} {f : α → Prog β} {Γ : Names} {C : List Bytes}
    (h : Fetching base Open p Γ C) (hf : ∀ a Γ' C', Fetching base Open (f a) Γ' C') :
    Fetching base Open (p >>= f) Γ C := by
  show Fetching base Open (Prog.bind p f) Γ C
  induction p generalizing Γ C with
  | pure a => exact hf a Γ C
  | throw e => trivial
  | step x k ih =>
    intro strict K hK Γg s hl hC hk hx
    obtain ⟨Γg', h1, h2, h3, h4⟩ := h strict K hK Γg s hl hC hk hx
    exact ⟨Γg', h1, h2, h3, ih _ h4⟩

theorem Fetching.under {p : Prog α} {Γ : Names} {C : List Bytes} (h : Fetching base Open p Γ C) (a : Nat)
    (m : Mode) : Fetching base Open (Prog.under a m p) Γ C := by
  induction p generalizing Γ C with
  | pure a => trivial
  | throw e => trivial
  | step x k ih =>
    intro strict K hK Γg s hl hC hk hx
    obtain ⟨Γg', h1, h2, h3, h4⟩ := h strict K hK Γg s hl hC hk hx
    exact ⟨Γg', h1, h2, h3, ih _ h4⟩

theorem Fetching.tryResult {p : Prog α} {Γ : Names} {C : List Bytes} (h : Fetching base Open p Γ C) :
    Fetching base Open p.tryResult Γ C := by
  induction p generalizing Γ C with
  | pure a => trivial
  | throw e => cases e <;> trivial
  | step x k ih =>
    intro strict K hK Γg s hl hC hk hx
    obtain ⟨Γg', h1, h2, h3, h4⟩ := h strict K hK Γg s hl hC hk hx
    exact ⟨Γg', h1, h2, h3, ih _ h4⟩

theorem Fetching.replyOf {p : Prog α} {f : α → Reply} {Γ : Names} {C : List Bytes}
    (h : Fetching base Open p Γ C) : Fetching base Open (Prog.replyOf f p) Γ C := by
  induction p generalizing Γ C with
  | pure a => trivial
  | throw e => trivial
  | step x k ih =>
    intro strict K hK Γg s hl hC hk hx
    obtain ⟨Γg', h1, h2, h3, h4⟩ := h strict K hK Γg s hl hC hk hx
    exact ⟨Γg', h1, h2, h3, ih _ h4⟩

/-- The next step. -/
theorem Fetching.next {strict : Bool} {p : Prog α} {Γ : Names} {s : St} (h : Fetching base Open p Γ s.core)
    {K : Names → St → Prop} (hK : Files base Open strict K) (hk : K Γ s)
    (hx : strict = true → ∀ q, p.files = some q → s.cache q = none) :
    ∃ Γ', Γ.le Γ' ∧ K Γ' (p.next s).2 ∧ (p.next s).2.core = s.core ∧
      Fetching base Open (p.next s).1 Γ' (p.next s).2.core := by
  cases p with
  | pure a => exact ⟨Γ, .refl Γ, hk, rfl, trivial⟩
  | throw e => exact ⟨Γ, .refl Γ, hk, rfl, trivial⟩
  | step x k =>
    obtain ⟨Γ', h1, h2, h3, h4⟩ := h strict K hK Γ s (.refl Γ) (List.prefix_refl _) hk hx
    exact ⟨Γ', h1, h2, h3, by rw [show ((Prog.step x k).next s).2 = (x.run s).2 from rfl, h3]; exact h4⟩

theorem fetching_lift {x : Atom α} (h : ∀ s, (x.run s).2 = s) (Γ : Names) (C : List Bytes) :
    Fetching base Open (Prog.lift x) Γ C := by
  intro strict K hK Γg s _ _ hk _
  rw [h]
  refine ⟨Γg, .refl Γg, hk, rfl, ?_⟩
  cases (x.run s).1 <;> trivial

theorem fetching_readNode (a : Nat) (Γ : Names) (C : List Bytes) :
    Fetching base Open (Prog.readNode a) Γ C := by
  refine fetching_lift (fun s => ?_) Γ C
  show (Hyperbee.readNode a s).2 = s
  unfold Hyperbee.readNode
  cases s.heap[a]? <;> rfl

theorem fetching_orPanic (site : String) (o : Option α) (Γ : Names) (C : List Bytes) :
    Fetching base Open (Prog.orPanic site o) Γ C := by
  cases o <;> trivial

theorem fetching_blocksGet (q : Nat) (Γ : Names) (C : List Bytes) :
    Fetching base Open (Prog.blocksGet q) Γ C := by
  intro _ K1 hK1 Γ1 s1 _ _ hi1 _
  refine ⟨Γ1, .refl Γ1, hi1, rfl, ?_⟩
  rw [show ((Atom.cacheGet q).run s1).1 = .ok (s1.cache q) from rfl]
  cases hc : s1.cache q with
  | some e => trivial
  | none =>
    have hopen := hK1.miss hi1 hc
    intro _ K2 hK2 Γ2 s2 hl2 _ hi2 _
    rw [show (Atom.coreFetch q).run s2 = getFromCore q s2 from rfl]
    have hr2 : s2.io.readable q = true := hK2.rd hi2 q
    cases hx : s2.core[q]? with
    | none =>
      have hcg : coreGet q s2 = (.ok none, s2) := by simp [coreGet, hx]
      have hf : getFromCore q s2 = (.ok none, s2) := by unfold getFromCore; rw [bind_ok hcg]; rfl
      rw [hf]
      exact ⟨Γ2, .refl Γ2, hi2, rfl, trivial⟩
    | some x =>
      cases hbl : blockOf x with
      | none =>
        obtain ⟨xs, hf⟩ := getFromCore_err hr2 hx hbl
        rw [hf]
        exact ⟨Γ2, .refl Γ2, hK2.grow hi2 xs, rfl, trivial⟩
      | some b =>
        have hba : blockAt s2.core q = some b := by simp [blockAt, hx, hbl]
        rw [getFromCore_run hr2 hba]
        obtain ⟨hle, hi3⟩ := hK2.load hi2 hopen hba
        refine ⟨_, hle, hi3, rfl, ?_⟩
        intro _ K4 hK4 Γ4 s4 hl4 hC4 hi4 hx4
        have her : ERel Γ4 ⟨List.range' s2.heap.length b.nodes.length, b.key, b.value⟩
            ⟨(List.range b.nodes.length).map fun j => base + Nat.pair q j, b.key, b.value⟩ :=
          ERel.mono hl4 ⟨rfl, rfl, forall2_load _ _ _ _⟩
        obtain ⟨t, ht⟩ := hC4
        refine ⟨Γ4, .refl Γ4, hK4.file (b := b) hi4 hopen ?_ her (fun hs => hx4 hs q rfl), rfl, trivial⟩
        rw [← ht]
        exact blockAt_append_some hba t

end

/-- Whatever is in memory and in the core. -/
structure Loader (α : Type) (p : Prog α) : Prop where
  safe : ∀ base Open Γ C, Fetching base Open p Γ C

theorem Loader.tryResult {p : Prog α} (h : Loader α p) : Loader _ p.tryResult := ⟨fun b o Γ C => (h.safe b o Γ C).tryResult⟩
theorem Loader.under {p : Prog α} (h : Loader α p) (a : Nat) (m : Mode) : Loader _ (Prog.under a m p) :=
  ⟨fun b o Γ C => (h.safe b o Γ C).under a m⟩
theorem Loader.replyOf {p : Prog α} {f : α → Reply} (h : Loader α p) : Loader _ (Prog.replyOf f p) :=
  ⟨fun b o Γ C => (h.safe b o Γ C).replyOf⟩
theorem loader_orPanic (site : String) (o : Option α) : Loader _ (Prog.orPanic site o) := ⟨fun _ _ => fetching_orPanic site o⟩

theorem loader_acts : RActs Loader where
  pure _ := ⟨fun _ _ _ _ => trivial⟩
  throw _ := ⟨fun _ _ _ _ => trivial⟩
  bind h hf := ⟨fun b o Γ C => (h.safe b o Γ C).bind fun a => (hf a).safe b o⟩
  readNode a := ⟨fun _ _ => fetching_readNode a⟩
  getChild a i := ⟨fun b o Γ C => by
    unfold Prog.getChild
    refine (fetching_readNode a Γ C).bind fun n Γ1 C1 => Fetching.under ?_ a .read
    refine (fetching_orPanic _ _ Γ1 C1).bind fun c Γ2 C2 => ?_
    exact (fetching_blocksGet _ Γ2 C2).bind fun e Γ3 C3 => fetching_orPanic _ _ Γ3 C3⟩
  getKeyValue a i := ⟨fun b o Γ C => by
    unfold Prog.getKeyValue
    refine (fetching_readNode a Γ C).bind fun n Γ1 C1 => Fetching.under ?_ a .read
    refine (fetching_orPanic _ _ Γ1 C1).bind fun q Γ2 C2 => ?_
    refine (fetching_blocksGet _ Γ2 C2).bind fun e Γ3 C3 => ?_
    exact (fetching_blocksGet _ Γ3 C3).bind fun e Γ4 C4 => trivial⟩
  version := ⟨fun _ _ => fetching_lift fun _ => rfl⟩
  descentFuel := ⟨fun _ _ => fetching_lift fun _ => rfl⟩
  blocksGet q := ⟨fun _ _ => fetching_blocksGet q⟩

theorem loader_getRoot : Loader _ (Prog.getRoot false) := by
  unfold Prog.getRoot
  refine loader_acts.bind loader_acts.version fun v => ?_
  split
  · split
    · rename_i h; simp at h
    · exact loader_acts.pure _
  · refine loader_acts.bind (loader_acts.blocksGet _) fun e => ?_
    exact loader_acts.bind (loader_orPanic _ _) fun a => loader_acts.pure _

theorem loader_pollSetup (r : Bool) (f : Frame) : Loader _ (Prog.pollSetup r f) := by
  unfold Prog.pollSetup
  pacts loader_acts [Loader.tryResult (loader_acts.makeIter_ _ _ _ _), (loader_acts.readNode _).under _ _]

theorem loader_poll (r : Bool) : ∀ fs : List Frame, Loader _ (Prog.poll r fs) := by
  intro fs
  induction fs with
  | nil => exact loader_acts.throw _
  | cons f rest ih =>
    unfold Prog.poll
    pacts loader_acts [Loader.tryResult (loader_acts.getKeyValue _ _),
      Loader.tryResult (loader_acts.getChild _ _), ih, loader_pollSetup _ _]

theorem loader_drive (rs : List Bool) : ∀ fs : List Frame,
    Loader _ (Prog.drive (fun x : Except Err KeyValueData => Pure.pure x) rs fs) := by
  induction rs with
  | nil => exact fun _ => loader_acts.pure _
  | cons r rs ih =>
    intro fs
    unfold Prog.drive
    pacts loader_acts [loader_poll _ _, ih _]

theorem loader_exec {c : Cmd} (hc : c.looks = true) : Loader _ (Prog.exec c) := by
  cases c with
  | version => exact Loader.replyOf loader_acts.version
  | get k =>
    refine Loader.replyOf ?_
    unfold Prog.get
    pacts loader_acts [loader_getRoot, loader_acts.nearestNode_ _ _, loader_orPanic _ _]
  | traverse b rs =>
    refine Loader.replyOf ?_
    unfold Prog.traverseSession Prog.collect Prog.traverse
    pacts loader_acts [loader_getRoot, loader_drive _ _]
  | _ => cases hc

theorem loader_history : ∀ {cs : List Cmd}, (∀ c ∈ cs, c.looks = true) → Loader _ (Prog.history cs) := by
  intro cs
  induction cs with
  | nil => exact fun _ => loader_acts.pure _
  | cons c cs ih =>
    intro h
    unfold Prog.history
    refine loader_acts.bind (loader_exec (h c (by simp))) fun r => ?_
    exact loader_acts.bind (ih fun c' hc' => h c' (by simp [hc'])) fun rs => loader_acts.pure _

end Hyperbee
