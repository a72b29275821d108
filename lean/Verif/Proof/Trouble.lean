import Verif.SpecTrouble
import Verif.Proof.Flaky
import Verif.Proof.Lossy
/-!
# Everything that can go wrong

Whatever goes wrong with a call about one entry ends it; a traversal appends nothing.
-/

namespace Hyperbee

/-! ## A failed read ends the call -/

/-- When a step fails to fetch, the program ends as `g` of the error. -/
def Bails (g : Err → Prog α) : Prog α → Prop
  | .pure _ => True
  | .throw _ => True
  | .step x k => (∀ f y, x.fail f = some y → ∃ e, ReadErr e ∧ k y = g e) ∧ ∀ r, Bails g (k r)

theorem NoFetch.bails {p : Prog α} (h : NoFetch p) (g : Err → Prog α) : Bails g p := by
  induction p with
  | pure a => trivial
  | throw e => trivial
  | step x k ih => exact ⟨fun f y hx => (nomatch (h.1 f).symm.trans hx), fun r => ih r (h.2 r)⟩

theorem Bails.bind {p : Prog α} {f : α → Prog β} (h : Bails .throw p) (hf : ∀ a, Bails .throw (f a)) :
    Bails .throw (p >>= f) := by
  induction p with
  | pure a => exact hf a
  | throw e => trivial
  | step x k ih =>
    refine ⟨fun g y hx => ?_, fun r => ih r (h.2 r)⟩
    obtain ⟨e, h1, h2⟩ := h.1 g y hx
    refine ⟨e, h1, ?_⟩
    show k y >>= f = _
    rw [h2]
    rfl

theorem Bails.under {p : Prog α} (a : Addr) (md : Mode) (h : Bails .throw p) : Bails .throw (p.under a md) := by
  induction p with
  | pure b => trivial
  | throw e => trivial
  | step x k ih =>
    refine ⟨fun g y hx => ?_, fun r => ih r (h.2 r)⟩
    obtain ⟨e, h1, h2⟩ := h.1 g y hx
    refine ⟨e, h1, ?_⟩
    show (k y).under a md = _
    rw [h2]
    rfl

theorem Bails.replyOf {p : Prog α} (f : α → Reply) (h : Bails .throw p) :
    Bails (fun e => .pure (.error e)) (Prog.replyOf f p) := by
  induction p with
  | pure a => trivial
  | throw e => trivial
  | step x k ih =>
    refine ⟨fun g y hx => ?_, fun r => ih r (h.2 r)⟩
    obtain ⟨e, h1, h2⟩ := h.1 g y hx
    refine ⟨e, h1, ?_⟩
    show (k y).replyOf f = _
    rw [h2]
    rfl

theorem bails_blocksGet (q : Nat) : Bails .throw (Prog.blocksGet q) := by
  unfold Prog.blocksGet
  refine Bails.bind ((noFetch_lift (.cacheGet q) fun _ => rfl).bails _) fun o => ?_
  cases o with
  | some e => trivial
  | none =>
    refine ⟨fun f y hx => ?_, fun r => ?_⟩
    · cases hx
      cases f with
      | io => exact ⟨_, .io, rfl⟩
      | missing => exact ⟨_, .missing q, rfl⟩
    · cases r with
      | error e => trivial
      | ok o =>
        cases o with
        | none => trivial
        | some e =>
          refine NoFetch.bails (p := (do Prog.lift (.cacheInsert q e); Pure.pure e : Prog BlockEntry)) ?_ _
          exact (noFetch_lift _ fun _ => rfl).bind fun _ => trivial

theorem bails_orPanic (site : String) (o : Option α) : Bails .throw (Prog.orPanic site o) :=
  (noFetch_orPanic site o).bails _

theorem bails_acts : DActs fun _ p => Bails .throw p where
  pure _ := trivial
  throw _ := trivial
  bind := Bails.bind
  readNode _ := (noFetch_readNode _).bails _
  edit _ _ _ := (noFetch_edit _ _ _).bails _
  moveChildren _ _ _ := NoFetch.bails
    (NoFetch.bind (noFetch_lift _ fun _ => rfl) fun _ => (noFetch_lift _ fun _ => rfl).under _ _) _
  getChild _ _ := Bails.bind ((noFetch_readNode _).bails _) fun _ => Bails.under _ _
    ((bails_orPanic _ _).bind fun _ => (bails_blocksGet _).bind fun _ => bails_orPanic _ _)
  getKeyValue _ _ := Bails.bind ((noFetch_readNode _).bails _) fun _ => Bails.under _ _
    ((bails_orPanic _ _).bind fun _ => (bails_blocksGet _).bind fun _ => (bails_blocksGet _).bind fun _ => trivial)
  alloc _ := (noFetch_alloc _).bails _
  version := noFetch_version.bails _
  descentFuel := (noFetch_lift _ fun _ => rfl).bails _
  blocksGet := bails_blocksGet

theorem bails_getRoot : Bails .throw (Prog.getRoot true) := by
  unfold Prog.getRoot
  pacts bails_acts [noFetch_ensureHeader.bails _, bails_acts.getTreeNode_ _ _]

theorem bails_putCas (k : Bytes) (v : Option Bytes) (cas : Option KeyValueData → KeyValueData → Bool) :
    Bails .throw (Prog.putCompareAndSwap k v cas) := by
  unfold Prog.putCompareAndSwap Prog.putPrepare
  pacts bails_acts [bails_getRoot, bails_acts.nearestNode_ _ _, bails_acts.getKeyValue_ _ _,
    bails_acts.putLoop_ _ _ _ _ _, (noFetch_commitPrepared _).bails _]

theorem bails_put (k : Bytes) (v : Option Bytes) : Bails .throw (Prog.put k v) := by
  unfold Prog.put; pacts bails_acts [bails_putCas _ _ _]

theorem bails_delCas (k : Bytes) (cas : KeyValueData → Bool) : Bails .throw (Prog.delCompareAndSwap k cas) := by
  unfold Prog.delCompareAndSwap; pacts bails_acts [bails_acts.delPrepare_ _ _, (noFetch_commitPrepared _).bails _]

theorem bails_del (k : Bytes) : Bails .throw (Prog.del k) := by
  unfold Prog.del; pacts bails_acts [bails_delCas _ _]

theorem bails_exec {c : Cmd} (hc : c.walks = false) : Bails (fun e => .pure (.error e)) (Prog.exec c) := by
  cases c with
  | version => exact Bails.replyOf _ (noFetch_version.bails _)
  | get k => exact (bails_acts.get_ k).replyOf _
  | traverse b rs => cases hc
  | put k v => exact (bails_put k v).replyOf _
  | putCas k v cas => exact (bails_putCas k v cas).replyOf _
  | del k => exact (bails_del k).replyOf _
  | delCas k cas => exact (bails_delCas k cas).replyOf _
  | createHeader m => exact ((noFetch_createHeader m).bails _).replyOf _
  | reopen => trivial

/-! ## Whatever goes wrong -/

theorem troubled_cases {p : Prog Reply} (hb : Bails (fun e => .pure (.error e)) p) (hg : GivesUp (.pure (.error .core)) p) :
    ∀ (ts : List (Option Trouble)) (s : St),
    p.troubled ts s = (some (p.run s).1, (p.run s).2) ∨
    ∃ n, (Prog.after n p s).1.ended = false ∧
      ((some .dropped ∈ ts ∧ p.troubled ts s = (none, (Prog.after n p s).2)) ∨
       (∃ f e, some (.read f) ∈ ts ∧ ReadErr e ∧ p.troubled ts s = (some (.ok (.error e)), (Prog.after n p s).2)) ∨
       ((Prog.after n p s).1.Appending ∧
        ((some (.append .refused) ∈ ts ∧ p.troubled ts s = (some (.ok (.error .core)), (Prog.after n p s).2)) ∨
         (some (.append .stored) ∈ ts ∧ p.troubled ts s = (some (.ok (.error .core)), (Prog.after (n + 1) p s).2))))) := by
  induction p with
  | pure a => intro ts s; exact .inl rfl
  | throw e => intro ts s; exact .inl rfl
  | step x k ih =>
    intro ts s
    have go : ts.head?.join ≠ some .dropped → ts.head?.join.bind x.trouble = none →
        (Prog.step x k).troubled ts s = (k (x.run s).1).troubled ts.tail (x.run s).2 := by
      intro h1 h2
      simp only [Prog.troubled, h1, if_false, h2]
    have stop : ∀ {m : M _} {e : Err}, ts.head?.join ≠ some .dropped → ts.head?.join.bind x.trouble = some m →
        k (m s).1 = .pure (.error e) → (Prog.step x k).troubled ts s = (some (.ok (.error e)), (m s).2) := by
      intro m e h1 h2 h3
      simp only [Prog.troubled, h1, if_false, h2, h3]
    have plain : ts.head?.join ≠ some .dropped → ts.head?.join.bind x.trouble = none →
        (Prog.step x k).troubled ts s = (some ((Prog.step x k).run s).1, ((Prog.step x k).run s).2) ∨
        ∃ n, (Prog.after n (Prog.step x k) s).1.ended = false ∧
          ((some .dropped ∈ ts ∧ (Prog.step x k).troubled ts s = (none, (Prog.after n (Prog.step x k) s).2)) ∨
           (∃ f e, some (.read f) ∈ ts ∧ ReadErr e ∧
              (Prog.step x k).troubled ts s = (some (.ok (.error e)), (Prog.after n (Prog.step x k) s).2)) ∨
           ((Prog.after n (Prog.step x k) s).1.Appending ∧
            ((some (.append .refused) ∈ ts ∧
                (Prog.step x k).troubled ts s = (some (.ok (.error .core)), (Prog.after n (Prog.step x k) s).2)) ∨
             (some (.append .stored) ∈ ts ∧
                (Prog.step x k).troubled ts s = (some (.ok (.error .core)), (Prog.after (n + 1) (Prog.step x k) s).2))))) := by
      intro h1 h2
      rw [go h1 h2]
      rcases ih (x.run s).1 (hb.2 _) (hg.2 _) ts.tail (x.run s).2 with h | ⟨n, h3, h⟩
      · exact .inl h
      · refine .inr ⟨n + 1, h3, ?_⟩
        rcases h with ⟨h4, h5⟩ | ⟨f, e, h4, h5, h6⟩ | ⟨h4, ⟨h5, h6⟩ | ⟨h5, h6⟩⟩
        · exact .inl ⟨List.mem_of_mem_tail h4, h5⟩
        · exact .inr (.inl ⟨f, e, List.mem_of_mem_tail h4, h5, h6⟩)
        · exact .inr (.inr ⟨h4, .inl ⟨List.mem_of_mem_tail h5, h6⟩⟩)
        · exact .inr (.inr ⟨h4, .inr ⟨List.mem_of_mem_tail h5, h6⟩⟩)
    cases ts with
    | nil => exact plain (by simp) rfl
    | cons o ts =>
      cases o with
      | none => exact plain (by simp) rfl
      | some t =>
        cases t with
        | dropped =>
          refine .inr ⟨0, rfl, .inl ⟨List.mem_cons_self, ?_⟩⟩
          rfl
        | read f =>
          cases hx : x.fail f with
          | none => exact plain (by simp) (by simp only [List.head?_cons, Option.join_some, Option.bind_some, Atom.trouble, hx]; rfl)
          | some y =>
            obtain ⟨e, h1, h2⟩ := hb.1 f y hx
            refine .inr ⟨0, rfl, .inr (.inl ⟨f, e, List.mem_cons_self, h1, ?_⟩)⟩
            exact stop (m := fun s => (y, s)) (by simp) (by simp only [List.head?_cons, Option.join_some, Option.bind_some, Atom.trouble, hx]; rfl) h2
        | append l =>
          cases hx : x.appends with
          | false => exact plain (by simp) (by simp [Atom.trouble, x.lose_none hx])
          | true =>
            obtain ⟨⟨m1, e1, f1⟩, m2, e2, f2⟩ := x.lose_some hx s
            refine .inr ⟨0, rfl, .inr (.inr ⟨hx, ?_⟩)⟩
            cases l with
            | refused =>
              refine .inl ⟨List.mem_cons_self, ?_⟩
              rw [stop (m := m1) (e := .core) (by simp) (by simp [Atom.trouble, e1]) (by rw [f1]; exact hg.1 hx), f1]
              rfl
            | stored =>
              refine .inr ⟨List.mem_cons_self, ?_⟩
              rw [stop (m := m2) (e := .core) (by simp) (by simp [Atom.trouble, e2]) (by rw [f2]; exact hg.1 hx), f2]
              rfl

/-- The reads that fail. -/
def readsOf (ts : List (Option Trouble)) : List (Option Fault) :=
  ts.map fun
    | some (.read f) => some f
    | _ => none

theorem readsOf_mem {ts : List (Option Trouble)} {f : Fault} (h : some f ∈ readsOf ts) : some (.read f) ∈ ts := by
  obtain ⟨o, h1, h2⟩ := List.mem_map.mp h
  match o, h2 with
  | some (.read g), h2 => cases h2; exact h1

/-- A program that appends nothing. -/
theorem troubled_noApp {p : Prog α} (h : NoApp α p) : ∀ (ts : List (Option Trouble)) (s : St),
    (some .dropped ∈ ts ∧ ∃ t, p.troubled ts s = (none, t) ∧ t.core = s.core) ∨
    p.troubled ts s = (some (p.flaky (readsOf ts) s).1, (p.flaky (readsOf ts) s).2) := by
  induction p with
  | pure a => intro ts s; exact .inr rfl
  | throw e => intro ts s; exact .inr rfl
  | step x k ih =>
    intro ts s
    have hc := (Atom.core_noApp h.1 s).1
    have go : ts.head?.join ≠ some .dropped → ts.head?.join.bind x.trouble = none →
        (readsOf ts).head?.join.bind x.fail = none →
        (some .dropped ∈ ts ∧ ∃ t, (Prog.step x k).troubled ts s = (none, t) ∧ t.core = s.core) ∨
        (Prog.step x k).troubled ts s = (some ((Prog.step x k).flaky (readsOf ts) s).1, ((Prog.step x k).flaky (readsOf ts) s).2) := by
      intro h1 h2 h3
      have e1 : (Prog.step x k).troubled ts s = (k (x.run s).1).troubled ts.tail (x.run s).2 := by
        simp only [Prog.troubled, h1, if_false, h2]
      have e2 : (Prog.step x k).flaky (readsOf ts) s = (k (x.run s).1).flaky (readsOf ts.tail) (x.run s).2 := by
        have : (readsOf ts).tail = readsOf ts.tail := by cases ts <;> rfl
        rw [← this]
        simp only [Prog.flaky, h3]
      rw [e1, e2]
      rcases ih (x.run s).1 (h.2 _) ts.tail (x.run s).2 with ⟨g1, t, g2, g3⟩ | g
      · exact .inl ⟨List.mem_of_mem_tail g1, t, g2, g3.trans hc⟩
      · exact .inr g
    cases ts with
    | nil => exact go (by simp) rfl rfl
    | cons o ts =>
      cases o with
      | none => exact go (by simp) rfl rfl
      | some t =>
        cases t with
        | dropped => exact .inl ⟨List.mem_cons_self, s, rfl, rfl⟩
        | append l => exact go (by simp) (by simp [Atom.trouble, x.lose_none h.1]) rfl
        | read f =>
          cases hx : x.fail f with
          | none => exact go (by simp) (by simp only [List.head?_cons, Option.join_some, Option.bind_some, Atom.trouble, hx]; rfl) (by simp [readsOf, hx])
          | some y =>
            have e1 : (Prog.step x k).troubled (some (.read f) :: ts) s = (k y).troubled ts s := by
              simp only [Prog.troubled, List.head?_cons, Option.join_some, Option.bind_some, Atom.trouble, hx]
              rfl
            have e2 : (Prog.step x k).flaky (readsOf (some (.read f) :: ts)) s = (k y).flaky (readsOf ts) s := by
              simp [Prog.flaky, readsOf, hx]
            rw [e1, e2]
            rcases ih y (h.2 _) ts s with ⟨g1, t, g2, g3⟩ | g
            · exact .inl ⟨List.mem_cons_of_mem _ g1, t, g2, g3⟩
            · exact .inr g

theorem flaky_none (p : Prog α) : ∀ (fs : List (Option Fault)) (s : St), (∀ f, some f ∉ fs) → p.flaky fs s = p.run s := by
  induction p with
  | pure a => intro fs s _; rfl
  | throw e => intro fs s _; rfl
  | step x k ih =>
    intro fs s h
    have h0 : fs.head?.join = none := by
      cases fs with
      | nil => rfl
      | cons o fs =>
        cases o with
        | none => rfl
        | some f => exact absurd List.mem_cons_self (h f)
    have : (Prog.step x k).flaky fs s = (k (x.run s).1).flaky fs.tail (x.run s).2 := by
      simp only [Prog.flaky, h0, Option.bind_none]
    rw [this]
    exact ih _ _ _ fun f hf => h f (List.mem_of_mem_tail hf)

end Hyperbee
