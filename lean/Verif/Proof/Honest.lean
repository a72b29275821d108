import Verif.Proof.Flight
import Verif.Proof.Append
import Verif.Model.World
/-!
# What readers report was written

Whatever calls overlap, and however their steps are ordered: an entry that a reader reports is the
content of the block it names.
-/

namespace Hyperbee

/-- Block `q` of the core holds this key and this value, and an index that can be read. -/
def Told (F : List Bytes) (q : Nat) (k : Bytes) (v : Option Bytes) : Prop :=
  ∃ b m, F[q]? = some b ∧ decodeNode b = some m ∧ m.key = k ∧ m.value = v ∧ decodeYolo m.index ≠ none

theorem Told.mono {c F : List Bytes} {q : Nat} {k : Bytes} {v : Option Bytes} (h : Told c q k v)
    (hp : c <+: F) : Told F q k v := by
  obtain ⟨b, m, h1, h2⟩ := h
  obtain ⟨t, rfl⟩ := hp
  refine ⟨b, m, ?_, h2⟩
  rw [List.getElem?_append_left (List.getElem?_eq_some_iff.mp h1).1, h1]

/-- What a step may only be taken with. -/
def Atom.asks (F : List Bytes) : Atom β → Prop
  | .cacheInsert q e => Told F q e.key e.value
  | .under _ _ x => x.asks F
  | _ => True

/-- What is known of the result of a step. -/
def Atom.says (F : List Bytes) : {β : Type} → Atom β → Except Err β → Prop
  | _, .cacheGet q, r => ∀ e, r = .ok (some e) → Told F q e.key e.value
  | _, .coreFetch q, r => ∀ e, r = .ok (some e) → Told F q e.key e.value
  | _, .under _ _ x, r => x.says F r
  | _, _, _ => True

/-- The program files only true entries in the cache, and what it returns satisfies `Q`. -/
def Hon (F : List Bytes) (Q : α → Prop) : Prog α → Prop
  | .pure a => Q a
  | .throw _ => True
  | .step x k => x.asks F ∧ ∀ r, x.says F r → Hon F Q (k r)

/-- The cached entries are true ones. -/
structure Candid (F : List Bytes) (s : St) : Prop where
  core : s.core <+: F
  cache : ∀ q e, s.cache q = some e → Told F q e.key e.value

theorem Hon.imp {F : List Bytes} {Q R : α → Prop} {p : Prog α} (h : Hon F Q p) (hq : ∀ a, Q a → R a) : Hon F R p := by
  induction p with
  | pure a => exact hq a h
  | throw e => trivial
  | step x k ih => exact ⟨h.1, fun r hr => ih r (h.2 r hr)⟩

theorem Hon.bind {F : List Bytes} {Q : α → Prop} {R : β → Prop} {p : Prog α} {f : α → Prog β} (h : Hon F Q p)
    (hf : ∀ a, Q a → Hon F R (f a)) : Hon F R (p >>= f) := by
  induction p with
  | pure a => exact hf a h
  | throw e => trivial
  | step x k ih => exact ⟨h.1, fun r hr => ih r (h.2 r hr)⟩

theorem Hon.under {F : List Bytes} {Q : α → Prop} {p : Prog α} (h : Hon F Q p) (a : Nat) (md : Mode) :
    Hon F Q (Prog.under a md p) := by
  induction p with
  | pure a => exact h
  | throw e => trivial
  | step x k ih => exact ⟨h.1, fun r hr => ih r (h.2 r hr)⟩

theorem Hon.tryResult {F : List Bytes} {Q : α → Prop} {p : Prog α} (h : Hon F Q p) :
    Hon F (fun r => ∀ a, r = .ok a → Q a) (Prog.tryResult p) := by
  induction p with
  | pure a => intro b hb; cases hb; exact h
  | throw e => cases e <;> first | trivial | (intro b hb; cases hb)
  | step x k ih => exact ⟨h.1, fun r hr => ih r (h.2 r hr)⟩

theorem Hon.replyOf {F : List Bytes} {Q : α → Prop} {R : Reply → Prop} {p : Prog α} {f : α → Reply} (h : Hon F Q p)
    (hf : ∀ a, Q a → R (f a)) (he : ∀ e, R (.error e)) : Hon F R (Prog.replyOf f p) := by
  induction p with
  | pure a => exact hf a h
  | throw e => exact he e
  | step x k ih => exact ⟨h.1, fun r hr => ih r (h.2 r hr)⟩

theorem Hon.catchExists {F : List Bytes} {p : Prog Nat} (h : Hon F (fun _ => True) p) :
    Hon F (fun _ => True) (Prog.catchExists p) := by
  induction p with
  | pure a => trivial
  | throw e => cases e <;> trivial
  | step x k ih => exact ⟨h.1, fun r hr => ih r (h.2 r hr)⟩

/-! ## Steps -/

/-- `m` changes at most the nodes. -/
def HeapOnly (m : M α) : Prop := ∀ s, (m s).2.core = s.core ∧ (m s).2.cache = s.cache

theorem HeapOnly.bind {m : M α} {f : α → M β} (h : HeapOnly m) (hf : ∀ a, HeapOnly (f a)) : HeapOnly (m >>= f) := by
  intro s
  rw [bind_run]
  have h1 := h s
  rcases e : m s with ⟨r, s'⟩
  rw [e] at h1
  cases r with
  | error e => exact h1
  | ok a =>
    have h2 := hf a s'
    exact ⟨h2.1.trans h1.1, h2.2.trans h1.2⟩

theorem HeapOnly.pure (a : α) : HeapOnly (Pure.pure a : M α) := fun _ => ⟨rfl, rfl⟩
theorem HeapOnly.throw (e : Err) : HeapOnly (Hyperbee.throw e : M α) := fun _ => ⟨rfl, rfl⟩
theorem HeapOnly.orPanic (site : String) (o : Option α) : HeapOnly (Hyperbee.orPanic site o) := by
  cases o <;> exact fun _ => ⟨rfl, rfl⟩
theorem HeapOnly.alloc (n : Node) : HeapOnly (Hyperbee.alloc n) := fun _ => ⟨rfl, rfl⟩
theorem HeapOnly.writeNode (a : Nat) (n : Node) : HeapOnly (Hyperbee.writeNode a n) := fun _ => ⟨rfl, rfl⟩
theorem HeapOnly.readNode (a : Nat) : HeapOnly (Hyperbee.readNode a) := by
  intro s
  unfold Hyperbee.readNode
  split <;> exact ⟨rfl, rfl⟩

theorem heapOnly_allocLevels : ∀ ls, HeapOnly (allocLevels ls) := by
  intro ls
  induction ls with
  | nil => exact HeapOnly.pure _
  | cons l ls ih =>
    unfold allocLevels
    exact (HeapOnly.orPanic _ _).bind fun _ => (HeapOnly.alloc _).bind fun _ => ih.bind fun _ => .pure _

theorem heapOnly_entry (m : NodeSchema) : HeapOnly (blockEntryNew m) := by
  unfold blockEntryNew makeNodeVec
  refine HeapOnly.bind ?_ fun _ => .pure _
  split
  · exact .throw _
  · exact heapOnly_allocLevels _

theorem entry_told {m : NodeSchema} {s : St} {e : BlockEntry} (h : (blockEntryNew m s).1 = .ok e) :
    e.key = m.key ∧ e.value = m.value ∧ decodeYolo m.index ≠ none := by
  unfold blockEntryNew at h
  rw [bind_run] at h
  rcases e1 : makeNodeVec m.index s with ⟨r, s'⟩
  rw [e1] at h
  cases r with
  | error e => cases h
  | ok a =>
    cases h
    refine ⟨rfl, rfl, fun hn => ?_⟩
    unfold makeNodeVec at e1
    rw [hn] at e1
    cases e1

theorem fetch_heapOnly (q : Nat) : HeapOnly (getFromCore q) := by
  unfold getFromCore
  refine HeapOnly.bind (fun _ => ⟨rfl, rfl⟩) fun o => ?_
  cases o with
  | none => exact .pure _
  | some b =>
    dsimp only
    split
    · exact .throw _
    · exact (heapOnly_entry _).bind fun _ => .pure _

theorem fetch_told {q : Nat} {s : St} {e : BlockEntry} (h : (getFromCore q s).1 = .ok (some e)) :
    Told s.core q e.key e.value := by
  unfold getFromCore at h
  rw [bind_run] at h
  simp only [coreGet] at h
  by_cases hr : s.io.readable q
  · simp only [hr, if_true] at h
    cases hc : s.core[q]? with
    | none => rw [hc] at h; cases h
    | some b =>
      rw [hc] at h
      dsimp only at h
      cases hd : decodeNode b with
      | none => rw [hd] at h; cases h
      | some m =>
        rw [hd] at h
        dsimp only at h
        rw [bind_run] at h
        rcases e1 : blockEntryNew m s with ⟨r, s'⟩
        rw [e1] at h
        cases r with
        | error e => cases h
        | ok a =>
          cases h
          have := entry_told (m := m) (s := s) (e := e) (by rw [e1])
          exact ⟨b, m, hc, hd, this.1.symm, this.2.1.symm, this.2.2⟩
  · simp only [hr] at h
    cases h

theorem heapOnly_edit (a : Nat) (f : Node → Except Err (β × Node)) : HeapOnly (edit a f) := by
  unfold edit
  refine (HeapOnly.readNode _).bind fun n => ?_
  split
  · exact (HeapOnly.writeNode _ _).bind fun _ => .pure _
  · exact .throw _

theorem heapOnly_move (l r n : Nat) : HeapOnly (Side.moveChildren l r n) := by
  unfold Side.moveChildren
  split
  · exact .throw _
  · exact (HeapOnly.readNode _).bind fun _ => (HeapOnly.writeNode _ _).bind fun _ => (HeapOnly.readNode _).bind fun _ =>
      (HeapOnly.orPanic _ _).bind fun _ => .writeNode _ _

theorem Candid.of_heapOnly {F : List Bytes} {s : St} (h : Candid F s) {m : M α} (hm : HeapOnly m) : Candid F (m s).2 :=
  ⟨by rw [(hm s).1]; exact h.core, fun q e => by rw [(hm s).2]; exact h.cache q e⟩

theorem Candid.step {F : List Bytes} (x : Atom β) {s : St} (h : Candid F s) (hx : x.asks F)
    (hF : (x.run s).2.core <+: F) : x.says F (x.run s).1 ∧ Candid F (x.run s).2 := by
  induction x with
  | version => exact ⟨trivial, h⟩
  | descentFuel => exact ⟨trivial, h⟩
  | cacheGet q =>
    refine ⟨fun e he => h.cache q e ?_, h⟩
    simpa [Atom.run, getFromCache] using he
  | coreFetch q => exact ⟨fun e he => (fetch_told he).mono h.core, h.of_heapOnly (fetch_heapOnly q)⟩
  | cacheInsert q e =>
    refine ⟨trivial, h.core, fun q' e' he => ?_⟩
    have he : cacheInsert q e s.cache q' = some e' := he
    unfold cacheInsert at he
    by_cases hq : q' = q
    · rw [if_pos hq] at he
      cases he
      rw [hq]
      exact hx
    · rw [if_neg hq] at he
      exact h.cache q' e' he
  | readNode a => exact ⟨trivial, h.of_heapOnly (HeapOnly.readNode a)⟩
  | edit md a f => exact ⟨trivial, h.of_heapOnly (heapOnly_edit a f)⟩
  | lockChildren a => exact ⟨trivial, h⟩
  | moveChildren l r n => exact ⟨trivial, h.of_heapOnly (heapOnly_move l r n)⟩
  | alloc n => exact ⟨trivial, h.of_heapOnly (HeapOnly.alloc n)⟩
  | coreAppend b =>
    refine ⟨trivial, hF, fun q e he => h.cache q e ?_⟩
    have he : (Hyperbee.coreAppend b s).2.cache q = some e := he
    unfold Hyperbee.coreAppend at he
    split at he <;> exact he
  | under a md x ih => exact ih hx hF

/-! ## Runs -/

theorem Prog.next_grows (p : Prog α) (s : St) : s.core <+: (p.next s).2.core := by
  cases p with
  | pure a => exact List.prefix_refl _
  | throw e => exact List.prefix_refl _
  | step x k => exact (x.grows s).1

theorem interleave_grows (sched : List Nat) : ∀ (ps : List (Prog α)) (s : St), s.core <+: (Prog.interleave sched ps s).2.core := by
  induction sched with
  | nil => intro ps s; exact List.prefix_refl _
  | cons i is ih =>
    intro ps s
    unfold Prog.interleave
    split
    · exact ih _ _
    · exact (Prog.next_grows _ _).trans (ih _ _)

theorem Hon.next {F : List Bytes} {Q : α → Prop} {p : Prog α} (h : Hon F Q p) {s : St} (hs : Candid F s)
    (hF : (p.next s).2.core <+: F) : Hon F Q (p.next s).1 ∧ Candid F (p.next s).2 := by
  cases p with
  | pure a => exact ⟨h, hs⟩
  | throw e => exact ⟨h, hs⟩
  | step x k =>
    have := hs.step x h.1 hF
    exact ⟨h.2 _ this.1, this.2⟩

theorem Hon.interleave {F : List Bytes} {Q : Nat → α → Prop} (sched : List Nat) : ∀ (ps : List (Prog α)) (s : St),
    (∀ i p, ps[i]? = some p → Hon F (Q i) p) → Candid F s → (Prog.interleave sched ps s).2.core <+: F →
    ∀ i p, (Prog.interleave sched ps s).1[i]? = some p → Hon F (Q i) p := by
  induction sched with
  | nil => intro ps s h _ _; exact h
  | cons j js ih =>
    intro ps s h hs hF
    unfold Prog.interleave at hF ⊢
    split
    · next hj => rw [hj] at hF; exact ih ps s h hs hF
    · next p hj =>
      rw [hj] at hF
      dsimp only at hF
      have h1 := (h j p hj).next hs ((interleave_grows _ _ _).trans hF)
      refine ih _ _ (fun i q hq => ?_) h1.2 hF
      rw [List.getElem?_set] at hq
      split at hq
      · next hij =>
        split at hq
        · cases hq; subst hij; exact h1.1
        · cases hq
      · exact h i q hq

theorem Hon.run {F : List Bytes} {Q : α → Prop} {p : Prog α} (h : Hon F Q p) {s : St} (hs : Candid F s)
    (hF : (p.run s).2.core <+: F) : (∀ a, (p.run s).1 = .ok a → Q a) ∧ Candid F (p.run s).2 := by
  induction p generalizing s with
  | pure a => exact ⟨fun b hb => by cases hb; exact h, hs⟩
  | throw e => exact ⟨fun b hb => (by cases hb), hs⟩
  | step x k ih =>
    have h1 := hs.step x h.1 (((k (x.run s).1).grows (x.run s).2).1.trans hF)
    exact ih _ (h.2 _ h1.1) h1.2 hF

/-! ## The programs -/

theorem hon_lift {F : List Bytes} (x : Atom α) (hx : x.asks F) :
    Hon F (fun a => x.says F (.ok a)) (Prog.lift x) := by
  refine ⟨hx, fun r hr => ?_⟩
  cases r with
  | ok a => exact hr
  | error e => trivial

theorem hon_orPanic {F : List Bytes} (site : String) (o : Option α) : Hon F (fun a => o = some a) (Prog.orPanic site o) := by
  cases o with
  | none => trivial
  | some a => exact rfl

theorem hon_blocksGet {F : List Bytes} (q : Nat) : Hon F (fun e => Told F q e.key e.value) (Prog.blocksGet q) := by
  unfold Prog.blocksGet
  refine (hon_lift (F := F) (.cacheGet q) trivial).bind fun o ho => ?_
  cases o with
  | some e => exact ho e rfl
  | none =>
    refine (hon_lift (F := F) (.coreFetch q) trivial).bind fun o ho => ?_
    cases o with
    | none => trivial
    | some e => exact (hon_lift (F := F) (.cacheInsert q e) (ho e rfl)).bind fun _ _ => ho e rfl

theorem Told.mix {F : List Bytes} {q : Nat} {k k' : Bytes} {v v' : Option Bytes} (h : Told F q k v) (h' : Told F q k' v') :
    Told F q k v' := by
  obtain ⟨b, m, h1, h2, h3, h4⟩ := h
  obtain ⟨b', m', h1', h2', h3', h4'⟩ := h'
  rw [h1] at h1'; cases h1'
  rw [h2] at h2'; cases h2'
  exact ⟨b, m, h1, h2, h3, h4'⟩

theorem hon_getKeyValue {F : List Bytes} (a i : Nat) :
    Hon F (fun e => Told F e.seq e.key e.value) (Prog.getKeyValue a i) := by
  unfold Prog.getKeyValue Prog.readNode
  refine (hon_lift (F := F) (.readNode a) trivial).bind fun n _ => Hon.under ?_ _ _
  exact (hon_orPanic _ _).bind fun q _ => (hon_blocksGet q).bind fun b1 h1 => (hon_blocksGet q).bind fun b2 h2 => h1.mix h2

theorem hon_acts (F : List Bytes) : DActs fun _ p => Hon F (fun _ => True) p where
  pure _ := trivial
  throw _ := trivial
  bind h hf := h.bind fun a _ => hf a
  readNode a := (hon_lift (.readNode a) trivial).imp fun _ _ => trivial
  edit m a f := (hon_lift (.edit m a f) trivial).imp fun _ _ => trivial
  moveChildren l r n := Hon.bind (hon_lift (.lockChildren l) trivial) fun _ _ =>
    ((hon_lift (.moveChildren l r n) trivial).imp fun _ _ => trivial).under _ _
  getChild a i := by
    unfold Prog.getChild Prog.readNode
    refine (hon_lift (F := F) (.readNode a) trivial).bind fun n _ => Hon.under ?_ _ _
    exact (hon_orPanic _ _).bind fun c _ => (hon_blocksGet _).bind fun b _ => (hon_orPanic _ _).imp fun _ _ => trivial
  getKeyValue a i := (hon_getKeyValue a i).imp fun _ _ => trivial
  alloc n := (hon_lift (.alloc n) trivial).imp fun _ _ => trivial
  version := (hon_lift .version trivial).imp fun _ _ => trivial
  descentFuel := (hon_lift .descentFuel trivial).imp fun _ _ => trivial
  blocksGet q := (hon_blocksGet q).imp fun _ _ => trivial

theorem hon_append {F : List Bytes} (b : Bytes) : Hon F (fun _ => True) (Prog.coreAppend b) :=
  (hon_lift (.coreAppend b) trivial).imp fun _ _ => trivial

theorem hon_get {F : List Bytes} (k : Bytes) :
    Hon F (fun o => ∀ q v, o = some (q, v) → ∃ k', Told F q k' v) (Prog.get k) := by
  unfold Prog.get
  refine (hon_acts F).getRoot_.bind fun o _ => ?_
  cases o with
  | none => intro q v h; cases h
  | some root =>
    refine ((hon_acts F).nearestNode_ root (.finite k)).bind fun r _ => ?_
    obtain ⟨matched, path⟩ := r
    dsimp only
    split
    · refine (hon_orPanic _ _).bind fun x _ => (hon_getKeyValue x.1 x.2).bind fun kv hkv => ?_
      intro q v h
      cases h
      exact ⟨_, hkv⟩
    · intro q v h; cases h

/-- What a poll yields is the content of its block, inside the bounds. -/
def Yields (F : List Bytes) (conf : TraverseConfig) (r : PollR × List Frame) : Prop :=
  (∀ e a w, r.1 = .ready (some (.ok e, a)) w → Told F e.seq e.key e.value ∧ conf.inBounds e.key = true) ∧
  ∀ f ∈ r.2, f.config = conf

theorem hon_pollSetup {F : List Bytes} {conf : TraverseConfig} (r : Bool) (f : Frame) (hf : f.config = conf) :
    Hon F (Yields F conf) (Prog.pollSetup r f) := by
  have one : ∀ {p : PollR} {g : Frame}, (∀ e a w, p ≠ .ready (some (.ok e, a)) w) → g.config = conf →
      Yields F conf (p, [g]) := fun h1 h2 => ⟨fun e a w h => absurd h (h1 e a w), fun x hx => by
        rw [List.mem_singleton] at hx; rw [hx]; exact h2⟩
  unfold Prog.pollSetup
  split
  · split
    · exact one (fun _ _ _ h => by cases h) hf
    · split
      · exact one (fun _ _ _ h => by cases h) hf
      · refine (((hon_acts F).readNode f.root)).bind fun n _ => ?_
        refine Hon.bind (Q := fun _ => True) (((hon_acts F).readNode f.root).under _ _) fun m _ => ?_
        exact one (fun _ _ _ h => by cases h) hf
  · split
    · split
      · exact one (fun _ _ _ h => by cases h) hf
      · trivial
      · split
        · exact one (fun _ _ _ h => by cases h) hf
        · refine ((hon_acts F).makeIter_ _ _ _ _).tryResult.bind fun x _ => ?_
          cases x with
          | ok it => exact one (fun _ _ _ h => by cases h) hf
          | error e => exact one (fun _ _ _ h => by cases h) hf
    · exact one (fun _ _ _ h => by cases h) hf
    · split
      · exact one (fun _ _ _ h => by cases h) hf
      · exact one (fun _ _ _ h => by cases h) hf

theorem hon_poll {F : List Bytes} {conf : TraverseConfig} (r : Bool) : ∀ fs : List Frame, (∀ f ∈ fs, f.config = conf) →
    Hon F (Yields F conf) (Prog.poll r fs) := by
  intro fs
  induction fs with
  | nil => intro _; trivial
  | cons f rest ih =>
    intro hc
    have hf : f.config = conf := hc f (by simp)
    have hr : ∀ g ∈ rest, g.config = conf := fun g hg => hc g (by simp [hg])
    have quiet : ∀ {p : PollR} {gs : List Frame}, (∀ e a w, p ≠ .ready (some (.ok e, a)) w) → (∀ g ∈ gs, g.config = conf) →
        Yields F conf (p, gs) := fun h1 h2 => ⟨fun e a w h => absurd h (h1 e a w), h2⟩
    have keep : ∀ {g : Frame}, g.config = conf → ∀ x ∈ g :: rest, x.config = conf := by
      intro g hg x hx
      rcases List.mem_cons.mp hx with rfl | hx
      · exact hg
      · exact hr x hx
    unfold Prog.poll
    split
    · split
      · trivial
      · split
        · exact quiet (fun _ _ _ h => by cases h) hc
        · refine (hon_getKeyValue _ _).tryResult.bind fun x hx => ?_
          cases x with
          | error e => exact quiet (fun _ _ _ h => by cases h) (keep hf)
          | ok kv =>
            dsimp only
            split
            · exact quiet (fun _ _ _ h => by cases h) (keep hf)
            · next hb =>
              refine ⟨fun e a w h => ?_, keep hf⟩
              cases h
              refine ⟨hx _ rfl, ?_⟩
              rw [hf] at hb
              simpa using hb
    · split
      · split
        · exact quiet (fun _ _ _ h => by cases h) hc
        · refine ((hon_acts F).getChild _ _).tryResult.bind fun x _ => ?_
          cases x with
          | error e => exact quiet (fun _ _ _ h => by cases h) (keep hf)
          | ok ch =>
            refine quiet (fun _ _ _ h => by cases h) fun g hg => ?_
            rcases List.mem_cons.mp hg with rfl | hg
            · exact hf
            · rw [List.mem_singleton] at hg; rw [hg]; exact hf
      · split
        · next c cs =>
          refine (ih hr).bind fun x hx => ?_
          obtain ⟨p, gs⟩ := x
          have h2 : ∀ g ∈ f :: gs, g.config = conf := by
            intro g hg
            rcases List.mem_cons.mp hg with rfl | hg
            · exact hf
            · exact hx.2 g hg
          cases p with
          | pending w a => exact quiet (fun _ _ _ h => by cases h) h2
          | ready item w =>
            cases item with
            | none =>
              refine quiet (fun _ _ _ h => by cases h) fun g hg => ?_
              rw [List.mem_singleton] at hg; rw [hg]; exact hf
            | some it =>
              refine ⟨fun e a w' h => ?_, h2⟩
              cases h
              exact hx.1 e a w rfl
        · exact hon_pollSetup r f hf

theorem hon_drive {F : List Bytes} {conf : TraverseConfig} (rs : List Bool) : ∀ fs : List Frame, (∀ f ∈ fs, f.config = conf) →
    Hon F (fun r => ∀ e, .ok e ∈ r.1 → Told F e.seq e.key e.value ∧ conf.inBounds e.key = true)
      (Prog.drive (fun x => Pure.pure x) rs fs) := by
  induction rs with
  | nil => intro fs _ e h; cases h
  | cons r rs ih =>
    intro fs hc
    unfold Prog.drive
    refine (hon_poll r fs hc).bind fun x hx => ?_
    obtain ⟨p, gs⟩ := x
    cases p with
    | pending w a => exact ih gs hx.2
    | ready item w =>
      cases item with
      | none => intro e h; cases h
      | some it =>
        obtain ⟨res, a⟩ := it
        refine Hon.bind (Q := fun y => y = res) rfl fun y hy => (ih gs hx.2).bind fun z hz => ?_
        intro e h
        rcases List.mem_cons.mp h with h | h
        · subst hy
          subst h
          exact hx.1 e a w rfl
        · exact hz e h

theorem hon_traverse {F : List Bytes} (conf : TraverseConfig) :
    Hon F (fun fs => ∀ f ∈ fs, f.config = conf) (Prog.traverse conf) := by
  unfold Prog.traverse
  refine (hon_acts F).getRoot_.bind fun o _ => ?_
  cases o with
  | none => trivial
  | some root =>
    intro f hf
    rw [List.mem_singleton] at hf
    rw [hf]
    rfl

/-- What a reply may say about entries. -/
def Candidly (F : List Bytes) (c : Cmd) : Reply → Prop
  | .got (some (q, v)) => ∃ k, Told F q k v
  | .items xs _ => ∀ e, .ok e ∈ xs → Told F e.seq e.key e.value ∧
      ∀ b rs conf, c = .traverse b rs → b.build = .ok conf → conf.inBounds e.key = true
  | _ => True

theorem hon_exec (F : List Bytes) (c : Cmd) : Hon F (Candidly F c) (Prog.exec c) := by
  have H := hon_acts F
  have he : Hon F (fun _ => True) Prog.ensureHeader :=
    Hon.catchExists (H.toPActs.createHeader_ hon_append none)
  cases c with
  | version => exact H.version.replyOf (fun _ _ => trivial) fun _ => trivial
  | get k =>
    refine (hon_get k).replyOf (fun o ho => ?_) fun _ => trivial
    cases o with
    | none => trivial
    | some x => exact ho x.1 x.2 rfl
  | put k v => exact (H.toPActs.put_ hon_append he k v).replyOf (fun _ _ => trivial) fun _ => trivial
  | putCas k v cas => exact (H.toPActs.putCas_ hon_append he k v cas).replyOf (fun _ _ => trivial) fun _ => trivial
  | del k => exact (H.del_ hon_append k).replyOf (fun _ _ => trivial) fun _ => trivial
  | delCas k cas => exact (H.delCas_ hon_append k cas).replyOf (fun _ _ => trivial) fun _ => trivial
  | createHeader m => exact (H.toPActs.createHeader_ hon_append m).replyOf (fun _ _ => trivial) fun _ => trivial
  | reopen => trivial
  | traverse b rs =>
    show Hon F _ (Prog.replyOf _ (Prog.traverseSession b rs))
    unfold Prog.traverseSession
    cases hb : b.build with
    | error e => trivial
    | ok conf =>
      dsimp only
      refine Hon.replyOf (Q := fun r => ∀ e, .ok e ∈ r.1 → Told F e.seq e.key e.value ∧ conf.inBounds e.key = true) ?_
        (fun r hr e h => ⟨(hr e h).1, fun b' rs' conf' hc hb' => ?_⟩) fun _ => trivial
      · unfold Prog.collect
        exact ((hon_traverse conf).bind fun fs hfs => hon_drive rs fs hfs).bind fun x hx => hx
      · cases hc
        rw [hb] at hb'
        cases hb'
        exact (hr e h).2

/-! ## Whole calls -/

theorem exec_grows (c : Cmd) (s : St) : s.core <+: (exec c s).2.core := by
  have := run_appends [c] s
  exact this

theorem Candid.exec {F : List Bytes} {s : St} (h : Candid F s) (c : Cmd) (hF : (exec c s).2.core <+: F) :
    Candid F (exec c s).2 := by
  by_cases hc : c = .reopen
  · subst hc
    exact ⟨hF, fun q e he => by cases he⟩
  · have := (hon_exec F c).run h (by rw [run_exec c hc]; exact hF)
    rw [run_exec c hc] at this
    exact this.2

theorem candid_run {F : List Bytes} : ∀ (cs : List Cmd) (s : St), Candid F s → (runSt cs s).core <+: F → Candid F (runSt cs s) := by
  intro cs
  induction cs with
  | nil => intro s h _; exact h
  | cons c cs ih =>
    intro s h hF
    have e : runSt (c :: cs) s = runSt cs (Hyperbee.exec c s).2 := rfl
    rw [e] at hF ⊢
    exact ih _ (h.exec c ((run_appends cs _).trans hF)) hF

theorem candid_reachable {F : List Bytes} {s : St} (h : Reachable s) (hF : s.core <+: F) : Candid F s := by
  obtain ⟨cs, rfl⟩ := h
  exact candid_run cs St.init ⟨List.nil_prefix, fun q e he => by cases he⟩ hF

/-! ## Several handles -/

/-- The cached entries of all handles are true ones. -/
def World.Candid (F : List Bytes) (w : World) : Prop := ∀ i, Hyperbee.Candid F (w.at i)

theorem World.Candid.set {F : List Bytes} {w : World} (hw : w.Candid F) {i : Nat} {s : St} (h : Hyperbee.Candid F s) :
    (w.set i s).Candid F := by
  intro j
  refine ⟨h.core, fun q e he => ?_⟩
  have he : (if j = i then (⟨s.cache, s.heap⟩ : Handle) else w.handles j).cache q = some e := he
  split at he
  · exact h.cache q e he
  · exact (hw j).cache q e he

theorem World.Candid.exec {F : List Bytes} {w : World} (hw : w.Candid F) (i : Nat) (c : Cmd)
    (hF : (w.exec i c).2.core <+: F) : (w.exec i c).2.Candid F :=
  hw.set ((hw i).exec c hF)

theorem World.exec_grows (w : World) (i : Nat) (c : Cmd) : w.core <+: (w.exec i c).2.core :=
  Hyperbee.exec_grows c (w.at i)

theorem World.run_grows : ∀ (cs : List (Nat × Cmd)) (w : World), w.core <+: (World.run cs w).2.core := by
  intro cs
  induction cs with
  | nil => intro w; exact List.prefix_refl _
  | cons x cs ih =>
    intro w
    obtain ⟨i, c⟩ := x
    exact (w.exec_grows i c).trans (ih _)

theorem World.Candid.run {F : List Bytes} : ∀ (cs : List (Nat × Cmd)) {w : World}, w.Candid F →
    (World.run cs w).2.core <+: F → (World.run cs w).2.Candid F := by
  intro cs
  induction cs with
  | nil => intro w h _; exact h
  | cons x cs ih =>
    intro w h hF
    obtain ⟨i, c⟩ := x
    exact ih (h.exec i c ((World.run_grows cs _).trans hF)) hF

theorem NoApp.core_run {p : Prog α} (h : NoApp α p) (s : St) : (p.run s).2.core = s.core := by
  induction p generalizing s with
  | pure a => rfl
  | throw e => rfl
  | step x k ih =>
    show ((k (x.run s).1).run (x.run s).2).2.core = s.core
    rw [ih _ (h.2 _), (Atom.core_noApp h.1 s).1]

theorem poll_grows (r : Bool) (fs : List Frame) (s : St) : s.core <+: (poll r fs s).2.core := by
  have := (Prog.poll r fs).grows s
  rw [does_poll r fs] at this
  exact this.1

theorem watch_grows (h : Nat) : ∀ (acts : List Act) (fs : List Frame) (w : World), w.core <+: (World.watch h acts fs w).2.core := by
  intro acts
  induction acts with
  | nil => intro fs w; exact List.prefix_refl _
  | cons a as ih =>
    intro fs w
    cases a with
    | call i c => exact (w.exec_grows i c).trans (ih _ _)
    | poll r =>
      have hp := poll_grows r fs (w.at h)
      unfold World.watch
      rcases e : Hyperbee.poll r fs (w.at h) with ⟨x, s'⟩
      rw [e] at hp
      have hp : w.core <+: s'.core := hp
      cases x with
      | error e => exact hp
      | ok y =>
        obtain ⟨p, fs'⟩ := y
        cases p with
        | pending a b => exact hp.trans (ih fs' (w.set h s'))
        | ready item wk =>
          cases item with
          | none => exact hp
          | some it =>
            obtain ⟨z, a⟩ := it
            have h2 := ih fs' (w.set h s')
            dsimp only
            rcases e2 : World.watch h as fs' (w.set h s') with ⟨y, w'⟩
            rw [e2] at h2
            cases y with
            | error e => exact hp.trans h2
            | ok y => exact hp.trans h2

theorem watch_honest {F : List Bytes} {conf : TraverseConfig} (h : Nat) : ∀ (acts : List Act) (fs : List Frame) (w : World),
    w.Candid F → (∀ f ∈ fs, f.config = conf) → (World.watch h acts fs w).2.core <+: F →
    ∀ xs fin, (World.watch h acts fs w).1 = .ok (xs, fin) → ∀ e, .ok e ∈ xs →
      Told F e.seq e.key e.value ∧ conf.inBounds e.key = true := by
  intro acts
  induction acts with
  | nil => intro fs w _ _ _ xs fin hx e he; cases hx; cases he
  | cons a as ih =>
    intro fs w hw hc hF xs fin hx e he
    cases a with
    | call i c =>
      exact ih fs _ (hw.exec i c ((watch_grows h as fs _).trans hF)) hc hF xs fin hx e he
    | poll r =>
      have hp : (∀ x, (Hyperbee.poll r fs (w.at h)).1 = .ok x → Yields F conf x) ∧
          ((Hyperbee.poll r fs (w.at h)).2.core <+: F → Hyperbee.Candid F (Hyperbee.poll r fs (w.at h)).2) := by
        have hg : w.core <+: F := (watch_grows h _ fs w).trans hF
        have hcore : (Hyperbee.poll r fs (w.at h)).2.core = w.core := by
          have := (noApp_acts.poll_ NoApp.tryResult (fun _ => (noApp_acts.readNode _).under _ _) r fs).core_run (w.at h)
          rw [does_poll r fs] at this
          exact this
        have := (hon_poll (F := F) (conf := conf) r fs hc).run (hw h) (by rw [does_poll r fs, hcore]; exact hg)
        rw [does_poll r fs] at this
        exact ⟨this.1, fun _ => this.2⟩
      unfold World.watch at hx hF
      rcases e1 : Hyperbee.poll r fs (w.at h) with ⟨x, s'⟩
      rw [e1] at hx hp hF
      cases x with
      | error e => cases hx
      | ok y =>
        obtain ⟨p, fs'⟩ := y
        obtain ⟨hp1, hp2⟩ := hp
        have hy := hp1 _ rfl
        cases p with
        | pending a b =>
          dsimp only at hx hF
          have hs : s'.core <+: F := (watch_grows h as fs' (w.set h s')).trans hF
          exact ih fs' _ (hw.set (hp2 hs)) hy.2 hF xs fin hx e he
        | ready item wk =>
          cases item with
          | none => cases hx; cases he
          | some it =>
            obtain ⟨z, a⟩ := it
            dsimp only at hx hF
            have h2 := watch_grows h as fs' (w.set h s')
            rcases e2 : World.watch h as fs' (w.set h s') with ⟨y, w'⟩
            rw [e2] at hx hF h2
            cases y with
            | error e => cases hx
            | ok y =>
              obtain ⟨ys, fin'⟩ := y
              dsimp only at hx hF h2
              cases hx
              have hs : s'.core <+: F := h2.trans hF
              rcases List.mem_cons.mp he with he | he
              · subst he
                exact hy.1 e a wk rfl
              · exact ih fs' _ (hw.set (hp2 hs)) hy.2 (by rw [e2]; exact hF) ys _ (by rw [e2]) e he

end Hyperbee
