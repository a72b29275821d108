import Verif.SpecFlaky
import Verif.Proof.Fault
import Verif.Proof.Stream
import Verif.Proof.SteadyRun
/-!
# Reads that fail

A search that meets a read error has loaded some blocks, and nothing else.
-/

namespace Hyperbee

/-- `r` and `t` are what may come of running `p` on `s`. -/
inductive Flakes : Prog α → St → Except Err α → St → Prop where
  | pure {a : α} {s : St} : Flakes (.pure a) s (.ok a) s
  | throw {e : Err} {s : St} : Flakes (.throw e) s (.error e) s
  | step {β : Type} {x : Atom β} {k : Except Err β → Prog α} {s t : St} {r : Except Err α} :
      Flakes (k (x.run s).1) (x.run s).2 r t → Flakes (.step x k) s r t
  | fault {β : Type} {x : Atom β} {k : Except Err β → Prog α} {s t : St} {r : Except Err α} {f : Fault} {y : Except Err β} :
      x.fail f = some y → Flakes (k y) s r t → Flakes (.step x k) s r t

theorem flaky_flakes (p : Prog α) : ∀ fs s, Flakes p s (p.flaky fs s).1 (p.flaky fs s).2 := by
  induction p with
  | pure a => intro fs s; exact .pure
  | throw e => intro fs s; exact .throw
  | step x k ih =>
    intro fs s
    cases hr : fs.head?.join.bind x.fail with
    | some r =>
      have : (Prog.step x k).flaky fs s = (k r).flaky fs.tail s := by rw [Prog.flaky, hr]
      rw [this]
      obtain ⟨f, _, hf⟩ := Option.bind_eq_some_iff.mp hr
      exact .fault hf (ih r fs.tail s)
    | none =>
      have : (Prog.step x k).flaky fs s = (k (x.run s).1).flaky fs.tail (x.run s).2 := by rw [Prog.flaky, hr]
      rw [this]
      exact .step (ih _ fs.tail _)

theorem Flakes.flaky {p : Prog α} {s t : St} {r : Except Err α} (h : Flakes p s r t) : ∃ fs, p.flaky fs s = (r, t) := by
  induction h with
  | pure => exact ⟨[], rfl⟩
  | throw => exact ⟨[], rfl⟩
  | step _ ih =>
    obtain ⟨fs, h⟩ := ih
    exact ⟨none :: fs, h⟩
  | fault hf _ ih =>
    rename_i f y _
    obtain ⟨fs, h⟩ := ih
    refine ⟨some f :: fs, ?_⟩
    unfold Prog.flaky
    simp only [List.head?_cons, Option.join_some, Option.bind_some, hf, List.tail_cons]
    exact h

theorem flakes_run (p : Prog α) : ∀ s, Flakes p s (p.run s).1 (p.run s).2 := by
  induction p with
  | pure a => intro s; exact .pure
  | throw e => intro s; exact .throw
  | step x k ih => intro s; exact .step (ih _ _)

theorem Flakes.bind {p : Prog α} {f : α → Prog β} {s t : St} {r : Except Err β} (h : Flakes (p >>= f) s r t) :
    (∃ a u, Flakes p s (.ok a) u ∧ Flakes (f a) u r t) ∨ ∃ e, Flakes p s (.error e) t ∧ r = .error e := by
  induction p generalizing s with
  | pure a => exact .inl ⟨a, s, .pure, h⟩
  | throw e =>
    cases h
    exact .inr ⟨e, .throw, rfl⟩
  | step x k ih =>
    have h : Flakes (.step x fun r => (k r).bind f) s r t := h
    cases h with
    | step h =>
      rcases ih _ h with ⟨a, u, h1, h2⟩ | ⟨e, h1, h2⟩
      · exact .inl ⟨a, u, .step h1, h2⟩
      · exact .inr ⟨e, .step h1, h2⟩
    | fault hf h =>
      rcases ih _ h with ⟨a, u, h1, h2⟩ | ⟨e, h1, h2⟩
      · exact .inl ⟨a, u, .fault hf h1, h2⟩
      · exact .inr ⟨e, .fault hf h1, h2⟩

theorem Flakes.then {p : Prog α} {f : α → Prog β} {s u t : St} {a : α} {r : Except Err β} (h1 : Flakes p s (.ok a) u)
    (h2 : Flakes (f a) u r t) : Flakes (p >>= f) s r t := by
  generalize hx : (Except.ok a : Except Err α) = x at h1
  induction h1 with
  | pure => cases hx; exact h2
  | throw => cases hx
  | step _ ih => exact .step (ih h2 hx)
  | fault hf _ ih => exact .fault hf (ih h2 hx)

/-- Nothing is fetched. -/
def NoFetch : Prog α → Prop
  | .pure _ => True
  | .throw _ => True
  | .step x k => (∀ f, x.fail f = none) ∧ ∀ r, NoFetch (k r)

theorem NoFetch.flakes {p : Prog α} (h : NoFetch p) {s t : St} {r : Except Err α} (hf : Flakes p s r t) :
    p.run s = (r, t) := by
  induction hf with
  | pure => rfl
  | throw => rfl
  | step _ ih => exact ih (h.2 _)
  | fault hf _ _ => rw [h.1] at hf; cases hf

theorem NoFetch.bind {p : Prog α} {f : α → Prog β} (h : NoFetch p) (hf : ∀ a, NoFetch (f a)) : NoFetch (p >>= f) := by
  induction p with
  | pure a => exact hf a
  | throw e => trivial
  | step x k ih => exact ⟨h.1, fun r => ih r (h.2 r)⟩

theorem noFetch_lift (x : Atom β) (h : ∀ f, x.fail f = none) : NoFetch (Prog.lift x) :=
  ⟨h, fun r => by cases r <;> trivial⟩

theorem noFetch_orPanic (site : String) (o : Option α) : NoFetch (Prog.orPanic site o) := by cases o <;> trivial

theorem noFetch_readNode (a : Nat) : NoFetch (Prog.readNode a) := noFetch_lift _ fun _ => rfl

theorem noFetch_version : NoFetch Prog.version := noFetch_lift _ fun _ => rfl

theorem noFetch_edit (md : Mode) (a : Nat) (f : Node → Except Err (β × Node)) : NoFetch (Prog.edit md a f) :=
  noFetch_lift _ fun _ => rfl

theorem noFetch_alloc (n : Node) : NoFetch (Prog.alloc n) := noFetch_lift _ fun _ => rfl

theorem noFetch_append (b : Bytes) : NoFetch (Prog.coreAppend b) := noFetch_lift _ fun _ => rfl

/-- Discharges goals about programs without fetches. -/
macro "nofetch" "[" hs:term,* "]" : tactic => do
  let mut t ← `(tactic| fail)
  for h in hs.getElems do
    t ← `(tactic| first | exact $h | $t:tactic)
  `(tactic|
    repeat' (first
      | exact noFetch_orPanic _ _
      | exact noFetch_readNode _
      | exact noFetch_edit _ _ _
      | exact noFetch_alloc _
      | exact noFetch_version
      | exact noFetch_append _
      | $t:tactic
      | apply NoFetch.bind
      | intro _
      | split
      | exact True.intro
      | dsimp only))

theorem noFetch_propagate : ∀ (p : NodePath) (ch : Changes) (c : Child), NoFetch (Prog.propagate ch p c) := by
  intro p
  induction p with
  | nil => intro ch c; trivial
  | cons x p ih =>
    intro ch c
    unfold Prog.propagate Prog.setChild
    nofetch [ih _ _]

theorem noFetch_putLoop (m : Bool) : ∀ (p : NodePath) (ch : Changes) (k : Nat) (cs : List Child),
    NoFetch (Prog.putLoop m p ch k cs) := by
  intro p
  induction p with
  | nil => intro ch k cs; unfold Prog.putLoop; nofetch []
  | cons x p ih =>
    intro ch k cs
    unfold Prog.putLoop Prog.nodeInsert Prog.split
    nofetch [ih _ _ _, noFetch_propagate _ _ _]

theorem noFetch_reorderLoop (q : Nat) (ns : List Nat) : ∀ fuel st out, NoFetch (Prog.reorderLoop q ns fuel st out) := by
  intro fuel
  induction fuel with
  | zero => intro st out; cases st <;> trivial
  | succ fuel ih =>
    intro st out
    cases st with
    | nil => trivial
    | cons x st =>
      unfold Prog.reorderLoop Prog.takeChildrenWithSeq
      nofetch [ih _ _]

theorem noFetch_readNodes : ∀ as, NoFetch (Prog.readNodes as) := by
  intro as
  induction as with
  | nil => trivial
  | cons a as ih => unfold Prog.readNodes; nofetch [ih]

theorem noFetch_commitPrepared (p : Prepared α) : NoFetch (Prog.commitPrepared p) := by
  cases p with
  | done a => trivial
  | commit ch a =>
    unfold Prog.commitPrepared Prog.addChanges Prog.reorderNodes Prog.takeChildrenWithSeq
    nofetch [noFetch_reorderLoop _ _ _ _ _, noFetch_readNodes _]

theorem noFetch_createHeader (m : Option Metadata) : NoFetch (Prog.createHeader m) := by
  unfold Prog.createHeader; nofetch []

theorem noFetch_ensureHeader : NoFetch Prog.ensureHeader := by
  have : ∀ p : Prog Nat, NoFetch p → NoFetch (Prog.catchExists p) := by
    intro p h
    induction p with
    | pure a => trivial
    | throw e => cases e <;> trivial
    | step x k ih => exact ⟨h.1, fun r => ih r (h.2 r)⟩
  exact this _ (noFetch_createHeader _)

/-! ## Searching -/

/-- Where `p` would succeed, failing reads make it fail with their error, having loaded blocks only. -/
def Frail (α : Type) (p : Prog α) : Prop :=
  ∀ s a s', SWF s → p.run s = (.ok a, s') → Ext s s' ∧
    ∀ r t, Flakes p s r t → (r = .ok a ∧ t = s') ∨ ∃ e, ReadErr e ∧ r = .error e ∧ Ext s t

theorem Frail.bind {p : Prog α} {f : α → Prog β} (h : Frail α p) (hf : ∀ a, Frail β (f a)) : Frail β (p >>= f) := by
  intro s b s' hw hr
  rw [Prog.run_bind] at hr
  cases h1 : p.run s with
  | mk x u =>
    cases x with
    | error e =>
      rw [bind_run, h1] at hr
      cases hr
    | ok a =>
      rw [bind_ok h1] at hr
      obtain ⟨e1, g1⟩ := h s a u hw h1
      obtain ⟨e2, g2⟩ := hf a u b s' e1.wf hr
      refine ⟨e1.trans e2, fun r t hfl => ?_⟩
      rcases hfl.bind with ⟨a', u', h2, h3⟩ | ⟨e, h2, rfl⟩
      · rcases g1 _ _ h2 with ⟨h4, rfl⟩ | ⟨e, _, h4, _⟩
        · cases h4
          rcases g2 _ _ h3 with h5 | ⟨e, h5, h6, h7⟩
          · exact .inl h5
          · exact .inr ⟨e, h5, h6, e1.trans h7⟩
        · cases h4
      · rcases g1 _ _ h2 with ⟨h4, _⟩ | ⟨e', h4, h5, h6⟩
        · cases h4
        · cases h5
          exact .inr ⟨e, h4, rfl, h6⟩

theorem frail_lift {x : Atom β} (hx : ∀ f, x.fail f = none) (hs : ∀ s, (x.run s).2 = s) : Frail β (Prog.lift x) := by
  intro s a s' hw hr
  have hsame : s' = s := by
    have : (Prog.lift x).run s = x.run s := congrFun (Does.lift x) s
    rw [this] at hr
    rw [← hs s, hr]
  subst hsame
  refine ⟨Ext.refl hw, fun r t hfl => .inl ?_⟩
  have := (noFetch_lift x hx).flakes hfl
  rw [hr] at this
  cases this
  exact ⟨rfl, rfl⟩

theorem Flakes.under {p : Prog α} {a : Addr} {md : Mode} {s t : St} {r : Except Err α} (h : Flakes (p.under a md) s r t) :
    Flakes p s r t := by
  induction p generalizing s with
  | pure b => exact h
  | throw e => exact h
  | step x k ih =>
    cases h with
    | step h => exact .step (ih _ h)
    | fault hf h =>
      rename_i f y
      exact Flakes.fault (x := x) (f := f) (y := y) hf (ih _ h)

theorem Frail.under {p : Prog α} (a : Addr) (md : Mode) (h : Frail α p) : Frail α (p.under a md) := by
  intro s b s' hw hr
  have : (Prog.under a md p).run = p.run := Does.under a md rfl
  rw [this] at hr
  obtain ⟨h1, h2⟩ := h s b s' hw hr
  exact ⟨h1, fun r t hfl => h2 r t hfl.under⟩

theorem frail_orPanic (site : String) (o : Option α) : Frail α (Prog.orPanic site o) := by
  intro s a s' hw hr
  cases o with
  | none => cases hr
  | some b =>
    cases hr
    exact ⟨Ext.refl hw, fun r t hfl => by cases hfl; exact .inl ⟨rfl, rfl⟩⟩

theorem flakes_fetch {q : Nat} {s t : St} {r : Except Err (Option BlockEntry)} (h : Flakes (Prog.lift (.coreFetch q)) s r t) :
    (r, t) = (Prog.lift (.coreFetch q)).run s ∨ t = s ∧ (r = .error .core ∨ r = .ok none) := by
  generalize hp : Prog.lift (.coreFetch q) = p at h
  cases h with
  | pure => cases hp
  | throw => cases hp
  | step h =>
    left
    unfold Prog.lift at hp
    cases hp
    refine (NoFetch.flakes ?_ h).symm
    cases ((Atom.coreFetch q).run s).1 <;> exact True.intro
  | fault hf h =>
    right
    rename_i f y
    unfold Prog.lift at hp
    cases hp
    simp only [Atom.fail] at hf
    cases hf
    cases f with
    | io => cases h; exact ⟨rfl, .inl rfl⟩
    | missing => cases h; exact ⟨rfl, .inr rfl⟩

theorem flakes_blocksGet {q : Nat} {s t : St} {r : Except Err BlockEntry} (hfl : Flakes (Prog.blocksGet q) s r t) :
    (r, t) = (Prog.blocksGet q).run s ∨ ∃ e, ReadErr e ∧ r = .error e ∧ t = s := by
  unfold Prog.blocksGet at hfl ⊢
  have hc : (Prog.lift (.cacheGet q)).run s = (.ok (s.cache q), s) := rfl
  rcases hfl.bind with ⟨o, u, h1, h2⟩ | ⟨e, h1, rfl⟩
  · have h1 := (noFetch_lift (.cacheGet q) fun _ => rfl).flakes h1
    rw [Prog.run_bind, bind_ok h1]
    have hu : u = s := by rw [hc] at h1; exact (congrArg Prod.snd h1).symm
    cases o with
    | some e => cases h2; exact .inl rfl
    | none =>
      subst hu
      dsimp only at h2 ⊢
      rcases h2.bind with ⟨o, u', h3, h4⟩ | ⟨e, h3, rfl⟩
      · rcases flakes_fetch h3 with h3 | ⟨rfl, h3 | h3⟩
        · left
          rw [Prog.run_bind, bind_ok h3.symm]
          cases o with
          | none => cases h4; rfl
          | some e =>
            have hn : NoFetch (do Prog.lift (.cacheInsert q e); Pure.pure e : Prog BlockEntry) :=
              (noFetch_lift _ fun _ => rfl).bind fun _ => trivial
            exact (hn.flakes h4).symm
        · cases h3
        · cases h3
          cases h4
          exact .inr ⟨_, .missing q, rfl, rfl⟩
      · rcases flakes_fetch h3 with h3 | ⟨rfl, h3 | h3⟩
        · left
          rw [Prog.run_bind, bind_run, ← h3]
        · cases h3; exact .inr ⟨_, .io, rfl, rfl⟩
        · cases h3
  · have h1 := (noFetch_lift (.cacheGet q) fun _ => rfl).flakes h1
    rw [hc] at h1
    cases congrArg Prod.fst h1

theorem frail_blocksGet (q : Nat) : Frail _ (Prog.blocksGet q) := by
  intro s a s' hw hr
  have hrun : (Prog.blocksGet q).run s = blocksGet q s := congrFun (does_blocksGet q) s
  rw [hrun] at hr
  have hext : Ext s s' := by
    rcases blocksGet_cases q s with ⟨e, _, h⟩ | ⟨hq, ⟨_, h⟩ | ⟨_, ⟨b, hb, h⟩ | ⟨_, _, e, xs, h, _⟩⟩⟩ <;> rw [h] at hr <;> cases hr
    · exact Ext.refl hw
    · exact ext_loaded hw hq hb
  refine ⟨hext, fun r t hfl => ?_⟩
  rcases flakes_blocksGet hfl with h | ⟨e, h1, h2, rfl⟩
  · rw [hrun, hr] at h
    cases h
    exact .inl ⟨rfl, rfl⟩
  · exact .inr ⟨e, h1, h2, Ext.refl hw⟩

theorem frail_readNode (a : Nat) : Frail _ (Prog.readNode a) := by
  refine frail_lift (fun _ => rfl) fun s => ?_
  show (Hyperbee.readNode a s).2 = s
  unfold Hyperbee.readNode
  split <;> rfl

theorem frail_acts : RActs Frail where
  pure a := by
    intro s b s' hw hr
    cases hr
    exact ⟨Ext.refl hw, fun r t hfl => by cases hfl; exact .inl ⟨rfl, rfl⟩⟩
  throw e := by
    intro s b s' hw hr
    cases hr
  bind := Frail.bind
  readNode := frail_readNode
  getChild a i := (frail_readNode a).bind fun n => Frail.under _ _
    ((frail_orPanic _ _).bind fun c => (frail_blocksGet _).bind fun b => frail_orPanic _ _)
  getKeyValue a i := (frail_readNode a).bind fun n => Frail.under _ _
    ((frail_orPanic _ _).bind fun q => (frail_blocksGet _).bind fun b => (frail_blocksGet _).bind fun b' => by
      intro s b s' hw hr
      cases hr
      exact ⟨Ext.refl hw, fun r t hfl => by cases hfl; exact .inl ⟨rfl, rfl⟩⟩)
  version := frail_lift (fun _ => rfl) fun _ => rfl
  descentFuel := frail_lift (fun _ => rfl) fun _ => rfl
  blocksGet := frail_blocksGet

/-! ## Searching, then writing -/

/-- The same of an operation that goes on to write once it has read all it needs. -/
def FrailW (p : Prog α) : Prop :=
  ∀ s a s', SWF s → p.run s = (.ok a, s') →
    ∀ r t, Flakes p s r t → (r = .ok a ∧ t = s') ∨ ∃ e, ReadErr e ∧ r = .error e ∧ Ext s t

theorem NoFetch.frailW {p : Prog α} (h : NoFetch p) : FrailW p := by
  intro s a s' _ hr r t hfl
  have := h.flakes hfl
  rw [hr] at this
  cases this
  exact .inl ⟨rfl, rfl⟩

theorem Frail.then {p : Prog α} {f : α → Prog β} (h : Frail α p) (hf : ∀ a, FrailW (f a)) : FrailW (p >>= f) := by
  intro s b s' hw hr r t hfl
  rw [Prog.run_bind] at hr
  cases h1 : p.run s with
  | mk x u =>
    cases x with
    | error e =>
      rw [bind_run, h1] at hr
      cases hr
    | ok a =>
      rw [bind_ok h1] at hr
      obtain ⟨e1, g1⟩ := h s a u hw h1
      rcases hfl.bind with ⟨a', u', h2, h3⟩ | ⟨e, h2, rfl⟩
      · rcases g1 _ _ h2 with ⟨h4, rfl⟩ | ⟨e, _, h4, _⟩
        · cases h4
          rcases hf a _ _ _ e1.wf hr _ _ h3 with h5 | ⟨e, h5, h6, h7⟩
          · exact .inl h5
          · exact .inr ⟨e, h5, h6, e1.trans h7⟩
        · cases h4
      · rcases g1 _ _ h2 with ⟨h4, _⟩ | ⟨e', h4, h5, h6⟩
        · cases h4
        · cases h5
          exact .inr ⟨e, h4, rfl, h6⟩

theorem FrailW.finally {p : Prog α} {f : α → Prog β} (h : FrailW p) (hf : ∀ a, NoFetch (f a)) : FrailW (p >>= f) := by
  intro s b s' hw hr r t hfl
  rw [Prog.run_bind] at hr
  cases h1 : p.run s with
  | mk x u =>
    cases x with
    | error e =>
      rw [bind_run, h1] at hr
      cases hr
    | ok a =>
      rw [bind_ok h1] at hr
      have g1 := h s a u hw h1
      rcases hfl.bind with ⟨a', u', h2, h3⟩ | ⟨e, h2, rfl⟩
      · rcases g1 _ _ h2 with ⟨h4, rfl⟩ | ⟨e, _, h4, _⟩
        · cases h4
          have := (hf a).flakes h3
          rw [hr] at this
          cases this
          exact .inl ⟨rfl, rfl⟩
        · cases h4
      · rcases g1 _ _ h2 with ⟨h4, _⟩ | ⟨e', h4, h5, h6⟩
        · cases h4
        · cases h5
          exact .inr ⟨e, h4, rfl, h6⟩

theorem Prog.bind_bind (p : Prog α) (f : α → Prog β) (g : β → Prog γ) : p >>= f >>= g = p >>= fun a => f a >>= g := by
  induction p with
  | pure a => rfl
  | throw e => rfl
  | step x k ih =>
    show Prog.step x _ = Prog.step x _
    congr 1
    funext r
    exact ih r

theorem frailW_getRoot {f : Option Addr → Prog β} (h0 : NoFetch (f none)) (h1 : ∀ a, FrailW (f (some a))) :
    FrailW (Prog.getRoot true >>= f) := by
  unfold Prog.getRoot
  rw [Prog.bind_bind]
  refine frail_acts.version.then fun v => ?_
  split
  · split
    · rw [Prog.bind_bind]
      exact (noFetch_ensureHeader.bind fun _ => h0).frailW
    · exact h0.frailW
  · rw [Prog.bind_bind]
    refine (frail_blocksGet _).then fun b => ?_
    rw [Prog.bind_bind]
    exact (frail_orPanic _ _).then fun a => h1 a

theorem frailW_putCas (k : Bytes) (v : Option Bytes) (cas : Option KeyValueData → KeyValueData → Bool) :
    FrailW (Prog.putCompareAndSwap k v cas) := by
  unfold Prog.putCompareAndSwap
  refine FrailW.finally ?_ fun p => noFetch_commitPrepared p
  unfold Prog.putPrepare
  refine frailW_getRoot ?_ fun a => ?_
  · refine noFetch_version.bind fun q => ?_
    dsimp only
    split
    · exact True.intro
    · exact (noFetch_putLoop _ _ _ _ _).bind fun _ => True.intro
  · refine frail_acts.version.then fun q => ?_
    dsimp only
    refine (frail_acts.nearestNode_ _ _).then fun x => ?_
    obtain ⟨matched, path⟩ := x
    dsimp only
    have hn : ∀ o : Option KeyValueData, NoFetch (if cas o ⟨q, k, v⟩ = false then Pure.pure (Prepared.done (matched, none))
        else do
          let ch ← Prog.putLoop matched.isSome path (Changes.new q k v) q []
          Pure.pure (.commit ch (matched, some q)) : Prog (Prepared (Option Nat × Option Nat))) := by
      intro o
      split
      · exact True.intro
      · exact (noFetch_putLoop _ _ _ _ _).bind fun _ => True.intro
    split
    · exact (frail_orPanic _ _).then fun x => (frail_acts.getKeyValue _ _).then fun kv => (hn (some kv)).frailW
    · exact (hn none).frailW

theorem frailW_put (k : Bytes) (v : Option Bytes) : FrailW (Prog.put k v) := by
  unfold Prog.put
  refine (frailW_putCas _ _ _).finally fun p => ?_
  nofetch []

theorem Flakes.replyOf {p : Prog α} {f : α → Reply} {s t : St} {r : Except Err Reply} (h : Flakes (Prog.replyOf f p) s r t) :
    ∃ x, Flakes p s x t ∧ r = .ok (match x with | .ok a => f a | .error e => .error e) := by
  induction p generalizing s with
  | pure a => cases h; exact ⟨_, .pure, rfl⟩
  | throw e => cases h; exact ⟨_, .throw, rfl⟩
  | step x k ih =>
    cases h with
    | step h =>
      obtain ⟨y, h1, h2⟩ := ih _ h
      exact ⟨y, .step h1, h2⟩
    | fault hf h =>
      rename_i f y
      obtain ⟨y, h1, h2⟩ := ih _ h
      exact ⟨y, .fault (f := f) hf h1, h2⟩

theorem FrailW.replyOf {p : Prog α} {m : M α} (hp : Does p m) (h : FrailW p) (f : α → Reply) {s t u : St} {r : Except Err Reply}
    {a : α} (hw : SWF s) (hok : m s = (.ok a, u)) (hfl : Flakes (Prog.replyOf f p) s r t) :
    (r = .ok (f a) ∧ t = u) ∨ ∃ e, ReadErr e ∧ r = .ok (.error e) ∧ Ext s t := by
  obtain ⟨x, h1, rfl⟩ := hfl.replyOf
  have hrun : p.run s = (.ok a, u) := by rw [← hok]; exact congrFun hp s
  rcases h s a u hw hrun _ _ h1 with ⟨rfl, h2⟩ | ⟨e, h2, rfl, h3⟩
  · exact .inl ⟨rfl, h2⟩
  · exact .inr ⟨e, h2, rfl, h3⟩

/-- A put or a get with failing reads. -/
theorem flakes_exec {s t : St} {d : Db} (h : Holds s d) {c : Cmd} {r : Except Err Reply}
    (hc : c.inserts = true ∨ ∃ k, c = .get k) (hfl : Flakes (Prog.exec c) s r t) :
    (r = .ok (exec c s).1 ∧ t = (exec c s).2) ∨ ∃ e, ReadErr e ∧ r = .ok (.error e) ∧ Ext s t := by
  cases c with
  | get k =>
    obtain ⟨s', h1, _⟩ := get_holds h k
    have := FrailW.replyOf (does_get k) (fun s a s' hw hr => (frail_acts.get_ k s a s' hw hr).2) .got h.wf h1 hfl
    simpa [exec, Hyperbee.replyOf, h1] using this
  | put k v =>
    obtain ⟨s', h0, _⟩ := putCAS_holds h k v fun _ _ => true
    have h1 : Hyperbee.put k v s = (.ok ((d.map k).map (·.1), d.nextSeq), s') := by
      unfold Hyperbee.put
      rw [bind_ok h0]
      rfl
    have := FrailW.replyOf (does_put k v) (frailW_put k v) (fun r => Reply.put r.1 r.2) h.wf h1 hfl
    simpa [exec, Hyperbee.replyOf, h1] using this
  | putCas k v cas =>
    obtain ⟨s', h1, _⟩ := putCAS_holds h k v cas
    have := FrailW.replyOf (does_putCas k v cas) (frailW_putCas k v cas) (fun r => Reply.putCas r.1 r.2) h.wf h1 hfl
    simpa [exec, Hyperbee.replyOf, h1] using this
  | createHeader m =>
    left
    obtain ⟨x, h1, rfl⟩ := hfl.replyOf
    have h2 := (noFetch_createHeader m).flakes h1
    rw [show (Prog.createHeader m).run s = createHeader m s from congrFun (does_createHeader m) s] at h2
    simp only [exec, Hyperbee.replyOf, h2]
    cases x <;> exact ⟨rfl, rfl⟩
  | version => simp [Cmd.inserts] at hc
  | traverse b sched => simp [Cmd.inserts] at hc
  | del k => simp [Cmd.inserts] at hc
  | delCas k cas => simp [Cmd.inserts] at hc
  | reopen => simp [Cmd.inserts] at hc

/-! ## Deletions -/

/-- Failing reads end `p`, and the core is as it was. -/
def Stops (α : Type) (p : Prog α) : Prop :=
  NoApp α p ∧ ∀ s r t, Flakes p s r t → (r, t) = p.run s ∨ ∃ e, ReadErr e ∧ r = .error e ∧ t.core = s.core

theorem NoApp.run_core {p : Prog α} (h : NoApp α p) : ∀ s, (p.run s).2.core = s.core := by
  induction p with
  | pure a => intro s; rfl
  | throw e => intro s; rfl
  | step x k ih => intro s; exact (ih _ (h.2 _) _).trans (Atom.core_noApp h.1 s).1

theorem Stops.bind {p : Prog α} {f : α → Prog β} (h : Stops α p) (hf : ∀ a, Stops β (f a)) : Stops β (p >>= f) := by
  refine ⟨h.1.bind fun a => (hf a).1, fun s r t hfl => ?_⟩
  rw [Prog.run_bind]
  rcases hfl.bind with ⟨a, u, h1, h2⟩ | ⟨e, h1, rfl⟩
  · rcases h.2 _ _ _ h1 with h3 | ⟨e, _, h3, _⟩
    · rw [bind_ok h3.symm]
      rcases (hf a).2 _ _ _ h2 with h4 | ⟨e, h4, h5, h6⟩
      · exact .inl h4
      · refine .inr ⟨e, h4, h5, h6.trans ?_⟩
        have := h.1.run_core s
        rwa [← h3] at this
    · cases h3
  · rcases h.2 _ _ _ h1 with h3 | ⟨e', h3, h4, h5⟩
    · left; rw [bind_run, ← h3]
    · cases h4; exact .inr ⟨e, h3, rfl, h5⟩

theorem Stops.under {p : Prog α} (a : Addr) (md : Mode) (h : Stops α p) : Stops α (p.under a md) := by
  refine ⟨h.1.under a md, fun s r t hfl => ?_⟩
  have : (Prog.under a md p).run = p.run := Does.under a md rfl
  rw [this]
  exact h.2 s r t hfl.under

theorem stops_of {p : Prog α} (h1 : NoApp α p) (h2 : NoFetch p) : Stops α p :=
  ⟨h1, fun _ _ _ hfl => .inl (h2.flakes hfl).symm⟩

theorem stops_orPanic (site : String) (o : Option α) : Stops α (Prog.orPanic site o) :=
  stops_of (noApp_orPanic _ _) (noFetch_orPanic _ _)

theorem stops_blocksGet (q : Nat) : Stops _ (Prog.blocksGet q) := by
  refine ⟨noApp_blocksGet q, fun s r t hfl => ?_⟩
  rcases flakes_blocksGet hfl with h | ⟨e, h1, h2, rfl⟩
  · exact .inl h
  · exact .inr ⟨e, h1, h2, rfl⟩

theorem NoFetch.under {p : Prog α} (a : Addr) (md : Mode) (h : NoFetch p) : NoFetch (p.under a md) := by
  induction p with
  | pure b => trivial
  | throw e => trivial
  | step x k ih => exact ⟨h.1, fun r => ih r (h.2 r)⟩

theorem stops_acts : DActs Stops where
  pure _ := stops_of trivial trivial
  throw _ := stops_of trivial trivial
  bind := Stops.bind
  readNode _ := stops_of (noApp_acts.readNode _) (noFetch_readNode _)
  edit _ _ _ := stops_of (noApp_acts.edit _ _ _) (noFetch_edit _ _ _)
  moveChildren _ _ _ := stops_of (noApp_acts.moveChildren _ _ _)
    (NoFetch.bind (noFetch_lift _ fun _ => rfl) fun _ => (noFetch_lift _ fun _ => rfl).under _ _)
  getChild _ _ := Stops.bind (stops_of (noApp_acts.readNode _) (noFetch_readNode _)) fun _ => Stops.under _ _
    ((stops_orPanic _ _).bind fun _ => (stops_blocksGet _).bind fun _ => stops_orPanic _ _)
  getKeyValue _ _ := Stops.bind (stops_of (noApp_acts.readNode _) (noFetch_readNode _)) fun _ => Stops.under _ _
    ((stops_orPanic _ _).bind fun _ => (stops_blocksGet _).bind fun _ => (stops_blocksGet _).bind fun _ => stops_of trivial trivial)
  alloc _ := stops_of (noApp_acts.alloc _) (noFetch_alloc _)
  version := stops_of noApp_acts.version noFetch_version
  descentFuel := stops_of noApp_acts.descentFuel (noFetch_lift _ fun _ => rfl)
  blocksGet := stops_blocksGet

theorem Stops.finally {p : Prog α} {f : α → Prog β} (h : Stops α p) (hf : ∀ a, NoFetch (f a)) {s t : St} {r : Except Err β}
    (hfl : Flakes (p >>= f) s r t) : (r, t) = (p >>= f).run s ∨ ∃ e, ReadErr e ∧ r = .error e ∧ t.core = s.core := by
  rw [Prog.run_bind]
  rcases hfl.bind with ⟨a, u, h1, h2⟩ | ⟨e, h1, rfl⟩
  · rcases h.2 _ _ _ h1 with h3 | ⟨e, _, h3, _⟩
    · rw [bind_ok h3.symm]
      exact .inl ((hf a).flakes h2).symm
    · cases h3
  · rcases h.2 _ _ _ h1 with h3 | ⟨e', h3, h4, h5⟩
    · left; rw [bind_run, ← h3]
    · cases h4; exact .inr ⟨e, h3, rfl, h5⟩

/-- A deletion with failing reads. -/
theorem flakes_del {s t : St} {c : Cmd} {r : Except Err Reply} (hc : (∃ k, c = .del k) ∨ ∃ k cas, c = .delCas k cas)
    (hfl : Flakes (Prog.exec c) s r t) :
    (r = .ok (exec c s).1 ∧ t = (exec c s).2) ∨ ∃ e, ReadErr e ∧ r = .ok (.error e) ∧ t.core = s.core := by
  have hcas : ∀ (k : Bytes) (cas : KeyValueData → Bool) (s t : St) (r : Except Err (Option (Bool × Nat))),
      Flakes (Prog.delCompareAndSwap k cas) s r t →
      (r, t) = delCompareAndSwap k cas s ∨ ∃ e, ReadErr e ∧ r = .error e ∧ t.core = s.core := by
    intro k cas s t r h
    have := Stops.finally (stops_acts.delPrepare_ k cas) (fun a => noFetch_commitPrepared a) h
    rwa [show (Prog.delPrepare k cas >>= Prog.commitPrepared).run s = delCompareAndSwap k cas s from
      congrFun (does_delCas k cas) s] at this
  rcases hc with ⟨k, rfl⟩ | ⟨k, cas, rfl⟩
  · obtain ⟨x, h1, rfl⟩ := hfl.replyOf
    have h2 : (x, t) = Hyperbee.del k s ∨ ∃ e, ReadErr e ∧ x = .error e ∧ t.core = s.core := by
      unfold Prog.del at h1
      unfold Hyperbee.del
      rcases h1.bind with ⟨a, u, h2, h3⟩ | ⟨e, h2, rfl⟩
      · rcases hcas k _ s u _ h2 with h4 | ⟨e, _, h4, _⟩
        · left
          rw [bind_ok h4.symm]
          cases a with
          | none => cases h3; rfl
          | some y =>
            obtain ⟨b, q⟩ := y
            cases b <;> cases h3 <;> rfl
        · cases h4
      · rcases hcas k _ s t _ h2 with h4 | ⟨e', h4, h5, h6⟩
        · left; rw [bind_run, ← h4]
        · cases h5; exact .inr ⟨e, h4, rfl, h6⟩
    rcases h2 with h2 | ⟨e, h2, rfl, h3⟩
    · left
      simp only [exec, Hyperbee.replyOf, ← h2]
      cases x <;> exact ⟨rfl, rfl⟩
    · exact .inr ⟨e, h2, rfl, h3⟩
  · obtain ⟨x, h1, rfl⟩ := hfl.replyOf
    rcases hcas k cas s t _ h1 with h2 | ⟨e, h2, rfl, h3⟩
    · left
      simp only [exec, Hyperbee.replyOf, ← h2]
      cases x <;> exact ⟨rfl, rfl⟩
    · exact .inr ⟨e, h2, rfl, h3⟩

/-! ## Deletions that delete nothing -/

/-- If `p` alone has nothing to commit, failing reads end it with some blocks more loaded. -/
def Idle (p : Prog (Prepared α)) : Prop :=
  ∀ s x s', SWF s → p.run s = (.ok (.done x), s') →
    ∀ r t, Flakes p s r t → (r = .ok (.done x) ∧ t = s') ∨ ∃ e, ReadErr e ∧ r = .error e ∧ Ext s t

theorem FrailW.idle {p : Prog (Prepared α)} (h : FrailW p) : Idle p := fun s _ s' hw hr => h s _ s' hw hr

theorem Frail.thenIdle {p : Prog α} {f : α → Prog (Prepared β)} (h : Frail α p) (hf : ∀ a, Idle (f a)) : Idle (p >>= f) := by
  intro s b s' hw hr r t hfl
  rw [Prog.run_bind] at hr
  cases h1 : p.run s with
  | mk x u =>
    cases x with
    | error e =>
      rw [bind_run, h1] at hr
      cases hr
    | ok a =>
      rw [bind_ok h1] at hr
      obtain ⟨e1, g1⟩ := h s a u hw h1
      rcases hfl.bind with ⟨a', u', h2, h3⟩ | ⟨e, h2, rfl⟩
      · rcases g1 _ _ h2 with ⟨h4, rfl⟩ | ⟨e, _, h4, _⟩
        · cases h4
          rcases hf a _ _ _ e1.wf hr _ _ h3 with h5 | ⟨e, h5, h6, h7⟩
          · exact .inl h5
          · exact .inr ⟨e, h5, h6, e1.trans h7⟩
        · cases h4
      · rcases g1 _ _ h2 with ⟨h4, _⟩ | ⟨e', h4, h5, h6⟩
        · cases h4
        · cases h5; exact .inr ⟨e, h4, rfl, h6⟩

theorem idle_delPrepare (k : Bytes) (cas : KeyValueData → Bool) : Idle (Prog.delPrepare k cas) := by
  unfold Prog.delPrepare
  refine frail_acts.getRoot_.thenIdle fun o => ?_
  cases o with
  | none => exact FrailW.idle (NoFetch.frailW True.intro)
  | some root =>
    refine (frail_acts.nearestNode_ _ _).thenIdle fun x => ?_
    obtain ⟨matched, path⟩ := x
    cases matched with
    | none => exact FrailW.idle (NoFetch.frailW True.intro)
    | some seq =>
      dsimp only
      refine (frail_orPanic _ _).thenIdle fun y => ?_
      refine (frail_acts.getKeyValue_ _ _).thenIdle fun kv => ?_
      split
      · exact FrailW.idle (NoFetch.frailW True.intro)
      · intro s x s' _ hr
        rw [Prog.run_bind, bind_run] at hr
        cases hd : (Prog.delChanges k path).run s with
        | mk o u =>
          rw [hd] at hr
          cases o <;> cases hr

/-- A deletion that deletes nothing, with failing reads. -/
theorem flakes_del_idle {s t : St} {d : Db} (h : Holds s d) {c : Cmd} {r : Except Err Reply}
    (hc : (∃ k, c = .del k) ∨ ∃ k cas, c = .delCas k cas) (hno : effect c (exec c s).1 = none)
    (hfl : Flakes (Prog.exec c) s r t) :
    (r = .ok (exec c s).1 ∧ t = (exec c s).2) ∨ ∃ e, ReadErr e ∧ r = .ok (.error e) ∧ Ext s t := by
  have hcas : ∀ (k : Bytes) (cas : KeyValueData → Bool) (x : Option (Bool × Nat)) (s' : St),
      delCompareAndSwap k cas s = (.ok x, s') → (∀ q, x ≠ some (true, q)) →
      ∀ r t, Flakes (Prog.delCompareAndSwap k cas) s r t →
      (r = .ok x ∧ t = s') ∨ ∃ e, ReadErr e ∧ r = .error e ∧ Ext s t := by
    intro k cas x s' hx hq r t hfl
    have hdone : (Prog.delPrepare k cas).run s = (.ok (.done x), s') := by
      rw [does_delPrepare]
      unfold delCompareAndSwap at hx
      rw [bind_run] at hx
      have hg := (delPrepare_gives k cas).at_ s
      cases hm : delPrepare k cas s with
      | mk o u =>
        rw [hm] at hx
        cases o with
        | error e => cases hx
        | ok p =>
          cases p with
          | done a => cases hx; rfl
          | commit ch a =>
            obtain ⟨q, rfl⟩ := hg _ _ hm
            simp only [commitPrepared, bind_run] at hx
            cases ha : addChanges ch u with
            | mk o u' =>
              rw [ha] at hx
              cases o with
              | error e => cases hx
              | ok y => cases hx; exact absurd rfl (hq q)
    have hi := idle_delPrepare k cas s x s' h.wf hdone
    unfold Prog.delCompareAndSwap at hfl
    rcases hfl.bind with ⟨p, u, h2, h3⟩ | ⟨e, h2, rfl⟩
    · rcases hi _ _ h2 with ⟨h4, rfl⟩ | ⟨e, _, h4, _⟩
      · cases h4
        cases h3
        exact .inl ⟨rfl, rfl⟩
      · cases h4
    · rcases hi _ _ h2 with ⟨h4, _⟩ | ⟨e', h4, h5, h6⟩
      · cases h4
      · cases h5; exact .inr ⟨e, h4, rfl, h6⟩
  rcases hc with ⟨k, rfl⟩ | ⟨k, cas, rfl⟩
  · obtain ⟨s', h1, _⟩ := delCAS_holds h k fun _ => true
    obtain ⟨x, h2, rfl⟩ := hfl.replyOf
    cases he : d.entry k with
    | some e =>
      rw [he] at h1
      have h3 : Hyperbee.del k s = (.ok (some e.seq), s') := by
        unfold Hyperbee.del
        rw [bind_ok h1]
        rfl
      simp [exec, Hyperbee.replyOf, h3, effect] at hno
    | none =>
      rw [he] at h1
      have h3 : Hyperbee.del k s = (.ok none, s') := by
        unfold Hyperbee.del
        rw [bind_ok h1]
        rfl
      have h4 : (x = .ok none ∧ t = s') ∨ ∃ e, ReadErr e ∧ x = .error e ∧ Ext s t := by
        unfold Prog.del at h2
        rcases h2.bind with ⟨a, u, h4, h5⟩ | ⟨e, h4, rfl⟩
        · rcases hcas k _ _ s' h1 (by simp) _ _ h4 with ⟨h6, rfl⟩ | ⟨e, _, h6, _⟩
          · cases h6
            cases h5
            exact .inl ⟨rfl, rfl⟩
          · cases h6
        · rcases hcas k _ _ s' h1 (by simp) _ _ h4 with ⟨h6, _⟩ | ⟨e', h6, h7, h8⟩
          · cases h6
          · cases h7; exact .inr ⟨e, h6, rfl, h8⟩
      rcases h4 with ⟨rfl, rfl⟩ | ⟨e, h5, rfl, h6⟩
      · left; simp [exec, Hyperbee.replyOf, h3]
      · exact .inr ⟨e, h5, rfl, h6⟩
  · obtain ⟨s', h1, _⟩ := delCAS_holds h k cas
    obtain ⟨x, h2, rfl⟩ := hfl.replyOf
    have hex : exec (.delCas k cas) s = (.delCas ((d.entry k).map fun e => (cas e, e.seq)), s') := by
      simp [exec, Hyperbee.replyOf, h1]
    rw [hex] at hno ⊢
    have hq : ∀ q, (d.entry k).map (fun e => (cas e, e.seq)) ≠ some (true, q) := by
      intro q hq
      rw [hq] at hno
      cases hno
    rcases hcas k cas _ s' h1 hq _ _ h2 with ⟨rfl, rfl⟩ | ⟨e, h5, rfl, h6⟩
    · exact .inl ⟨rfl, rfl⟩
    · exact .inr ⟨e, h5, rfl, h6⟩

end Hyperbee
