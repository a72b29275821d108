import Verif.Model.Drop
import Verif.Proof.Honest
import Verif.Proof.Refine
/-!
# What stays in the cache
-/

namespace Hyperbee

/-! ## References in a circle -/

theorem Freed.inv {s : St} {x y : Part} (h : Freed s x) (hy : Refers s y x) : Freed s y := by
  cases h with
  | free h => exact h y hy

/-- Nothing in a circle is freed. -/
theorem circle {s : St} {q : Nat} {e : BlockEntry} {a : Addr} (he : s.cache q = some e) (ha : a ∈ e.nodes) :
    ∀ x, Freed s x → x ≠ .blocks ∧ x ≠ .entry q ∧ x ≠ .node a := by
  intro x h
  induction h with
  | free h ih =>
    refine ⟨?_, ?_, ?_⟩
    · rintro rfl; exact (ih _ (.node a)).2.2 rfl
    · rintro rfl; exact (ih _ (.cache he)).1 rfl
    · rintro rfl; exact (ih _ (.entry he ha)).2.1 rfl

theorem freed_blocks_iff (s : St) : Freed s .blocks ↔ ∀ q e, s.cache q = some e → e.nodes = [] := by
  constructor
  · intro h q e he
    cases hn : e.nodes with
    | nil => rfl
    | cons a as => exact absurd rfl (circle he (a := a) (by simp [hn]) _ h).1
  · intro h
    refine .free fun y hy => ?_
    cases hy with
    | tree => exact .free fun y hy => nomatch hy
    | node a =>
      refine .free fun y hy => ?_
      cases hy with
      | entry he ha => rw [h _ _ he] at ha; cases ha

theorem freed_all {s : St} (h : Freed s .blocks) (x : Part) : Freed s x := by
  have he : ∀ q, Freed s (.entry q) := fun q => .free fun y hy => by cases hy; exact h
  cases x with
  | tree => exact .free fun y hy => nomatch hy
  | blocks => exact h
  | core => exact .free fun y hy => by cases hy; exact h
  | entry q => exact he q
  | node a => exact .free fun y hy => by cases hy; exact he _

/-! ## What is in the cache stays there -/

/-- Entries of the cache stay as they are. -/
def Stays (α : Type) (m : M α) : Prop := ∀ s q e, s.cache q = some e → (m s).2.cache q = some e

theorem Stays.of_cache {m : M α} (h : ∀ s, (m s).2.cache = s.cache) : Stays α m := fun s q e he => by rw [h]; exact he

theorem stays_bind {m : M α} {f : α → M β} (hm : Stays α m) (hf : ∀ a, Stays β (f a)) : Stays β (m >>= f) := by
  intro s q e he
  have h1 := hm s q e he
  rw [bind_run]
  generalize m s = o at h1 ⊢
  obtain ⟨o1, o2⟩ := o
  cases o1 with
  | ok a => exact hf a _ q e h1
  | error e => exact h1

theorem stays_blocksGet (q : Nat) : Stays _ (blocksGet q) := by
  intro s q' e he
  unfold blocksGet
  cases hq : s.cache q with
  | some b =>
    rw [bind_ok (show getFromCache q s = (.ok (some b), s) from by rw [← hq]; rfl)]
    exact he
  | none =>
    rw [bind_ok (show getFromCache q s = (.ok none, s) from by rw [← hq]; rfl)]
    have h1 := (fetch_heapOnly q s).2
    simp only []
    rw [bind_run]
    generalize getFromCore q s = o at h1 ⊢
    obtain ⟨o1, o2⟩ := o
    simp only [] at h1
    cases o1 with
    | error e' => show o2.cache q' = some e; rw [h1]; exact he
    | ok x =>
      cases x with
      | none => show o2.cache q' = some e; rw [h1]; exact he
      | some b =>
        show cacheInsert q b o2.cache q' = some e
        unfold cacheInsert
        rw [if_neg (by rintro rfl; rw [hq] at he; cases he), h1]
        exact he

theorem stays_reads : Reads Stays where
  pure _ := fun _ _ _ h => h
  throw _ := fun _ _ _ h => h
  bind := stays_bind
  readNode a := .of_cache fun s => (HeapOnly.readNode a s).2
  version := fun _ _ _ h => h
  descentFuel := fun _ _ _ h => h
  blocksGet := stays_blocksGet
  tryResult := by
    intro α m hm s q e he
    have h1 := hm s q e he
    unfold tryResult
    generalize m s = o at h1 ⊢
    obtain ⟨o1, o2⟩ := o
    cases o1 with
    | ok a => exact h1
    | error e => cases e <;> exact h1

theorem stays_append (b : Bytes) : Stays _ (coreAppend b) := by
  intro s q e he
  unfold coreAppend
  split <;> exact he

theorem stays_acts : Acts Stays where
  toLooks := stays_reads.toLooks
  writeNode _ _ := fun _ _ _ h => h
  alloc _ := fun _ _ _ h => h
  coreAppend := stays_append
  ensureHeader := by
    intro s q e he
    have h1 : Stays _ (createHeader none) := by
      unfold createHeader
      refine stays_bind (fun _ _ _ h => h) fun v => ?_
      split
      · exact fun _ _ _ h => h
      · exact stays_append _
    have h2 := h1 s q e he
    unfold ensureHeader
    generalize createHeader none s = o at h2 ⊢
    obtain ⟨o1, o2⟩ := o
    cases o1 with
    | ok a => exact h2
    | error e => cases e <;> exact h2

theorem reply_after (m : M α) (f : α → Reply) (s : St) : (replyOf m f s).2 = (m s).2 := by
  unfold replyOf
  generalize m s = o
  obtain ⟨o1, o2⟩ := o
  cases o1 <;> rfl

/-- No call on a handle takes anything out of its cache. -/
theorem exec_stays {c : Cmd} (hc : c ≠ .reopen) {s : St} {q : Nat} {e : BlockEntry} (he : s.cache q = some e) :
    (exec c s).2.cache q = some e := by
  cases c with
  | reopen => exact absurd rfl hc
  | version => exact he
  | get k => simp only [exec]; rw [reply_after]; exact stays_reads.toLooks.get_ k s q e he
  | put k v => simp only [exec]; rw [reply_after]; exact stays_acts.put_ k v s q e he
  | putCas k v cas => simp only [exec]; rw [reply_after]; exact stays_acts.putCAS_ k v cas s q e he
  | del k => simp only [exec]; rw [reply_after]; exact stays_acts.del_ k s q e he
  | delCas k cas => simp only [exec]; rw [reply_after]; exact stays_acts.delCAS_ k cas s q e he
  | createHeader m => simp only [exec]; rw [reply_after]; exact stays_acts.createHeader_ m s q e he
  | traverse b sched => simp only [exec]; rw [reply_after]; exact stays_reads.traverseSession_ b sched s q e he

/-! ## What puts something there -/

/-- Some block of the cache has a node. -/
def Laden (s : St) : Prop := ∃ q e, s.cache q = some e ∧ e.nodes ≠ []

theorem Laden.stays {s : St} (h : Laden s) {m : M α} (hm : Stays α m) : Laden (m s).2 := by
  obtain ⟨q, e, h1, h2⟩ := h
  exact ⟨q, e, hm s q e h1, h2⟩

theorem laden_addr {s : St} {r : Child} {a : Nat} (h : addrOf s r = some a) : Laden s := by
  unfold addrOf at h
  cases hc : s.cache r.seq with
  | none => rw [hc] at h; cases h
  | some e =>
    rw [hc] at h
    refine ⟨r.seq, e, hc, ?_⟩
    intro h0
    simp [h0] at h

/-- Whatever follows the search for the root. -/
theorem laden_root {s : St} {H : Nat} {t : T} (ht : TreeAt s.core H t) (hw : SWF s) (ens : Bool)
    {k : Option Addr → M β} (hk : ∀ o, Stays β (k o)) : Laden ((getRoot ens >>= k) s).2 := by
  obtain ⟨a, s1, h1, -, ha⟩ := getRoot_run ht hw ens
  rw [bind_ok h1]
  exact (laden_addr ha).stays (hk _)

theorem laden_bind {s : St} {m : M α} {f : α → M β} (h : Laden (m s).2) (hf : ∀ a, Stays β (f a)) :
    Laden ((m >>= f) s).2 := by
  rw [bind_run]
  generalize m s = o at h ⊢
  obtain ⟨o1, o2⟩ := o
  cases o1 with
  | ok a => exact h.stays (hf a)
  | error e => exact h

theorem laden_putCas {s : St} {H : Nat} {t : T} (ht : TreeAt s.core H t) (hw : SWF s) (k : Bytes) (v : Option Bytes)
    (cas : Option KeyValueData → KeyValueData → Bool) : Laden (putCompareAndSwap k v cas s).2 := by
  have h := stays_acts
  unfold putCompareAndSwap
  refine laden_bind ?_ fun p => h.commitPrepared_ p
  unfold putPrepare
  refine laden_root ht hw true fun o => ?_
  generalize Stays = P at h ⊢
  acts h [h.toLooks.nearestNode_ _ _, h.toLooks.getKeyValue_ _ _, h.putLoop_ _ _ _ _ _]

theorem laden_delCas {s : St} {H : Nat} {t : T} (ht : TreeAt s.core H t) (hw : SWF s) (k : Bytes)
    (cas : KeyValueData → Bool) : Laden (delCompareAndSwap k cas s).2 := by
  have h := stays_acts
  unfold delCompareAndSwap
  refine laden_bind ?_ fun p => h.commitPrepared_ p
  unfold delPrepare
  refine laden_root ht hw false fun o => ?_
  generalize Stays = P at h ⊢
  acts h [h.toLooks.nearestNode_ _ _, h.toLooks.getKeyValue_ _ _, h.delChanges_ _ _]

/-- A call that searches a tree leaves a node in the cache. -/
theorem exec_laden {s : St} {d : Db} (h : Holds s d) (h2 : 2 ≤ s.core.length) {c : Cmd} (hc : c.searches = true) :
    Laden (exec c s).2 := by
  rcases h.store with hb | ⟨H, t, ht, -, -⟩
  · have := hb.1; omega
  have ha := stays_acts
  have hr := stays_reads
  cases c with
  | version => cases hc
  | createHeader m => cases hc
  | reopen => cases hc
  | get k =>
    simp only [exec]; rw [reply_after]
    unfold get
    refine laden_root ht h.wf false fun o => ?_
    generalize Stays = P at hr ⊢
    reads hr [hr.toLooks.nearestNode_ _ _, hr.toLooks.getKeyValue_ _ _]
  | put k v =>
    simp only [exec]; rw [reply_after]
    unfold put
    refine laden_bind (laden_putCas ht h.wf k v _) fun o => ?_
    generalize Stays = P at ha ⊢
    acts ha []
  | putCas k v cas => simp only [exec]; rw [reply_after]; exact laden_putCas ht h.wf k v cas
  | del k =>
    simp only [exec]; rw [reply_after]
    unfold del
    refine laden_bind (laden_delCas ht h.wf k _) fun o => ?_
    generalize Stays = P at ha ⊢
    acts ha []
  | delCas k cas => simp only [exec]; rw [reply_after]; exact laden_delCas ht h.wf k cas
  | traverse b sched =>
    simp only [exec]; rw [reply_after]
    unfold traverseSession
    cases hb : b.build with
    | error e => rw [Cmd.searches, hb] at hc; cases hc
    | ok conf =>
      simp only []
      refine laden_bind ?_ fun o => hr.pure _
      unfold collect
      refine laden_bind ?_ fun o => hr.drive_ (fun x => hr.pure x) _ _
      unfold traverse
      refine laden_root ht h.wf false fun o => ?_
      generalize Stays = P at hr ⊢
      reads hr []

/-! ## What does not -/

theorem getRoot_bare {s : St} (h : s.core.length ≤ 1) : getRoot false s = (.ok none, s) := by
  rcases Nat.lt_or_ge s.core.length 1 with hl | hl
  · exact getRoot_zero_false (by omega)
  · exact getRoot_one (by omega) false

theorem heapOnly_reorder (seq : Nat) (nodes : List Addr) : ∀ fuel stack out,
    HeapOnly (reorderLoop seq nodes fuel stack out) := by
  intro fuel
  induction fuel with
  | zero =>
    intro stack out
    cases stack with
    | nil => exact .pure _
    | cons x xs => exact .throw _
  | succ fuel ih =>
    intro stack out
    cases stack with
    | nil => exact .pure _
    | cons x xs =>
      refine .bind (.readNode _) fun n => .bind (.orPanic _ _) fun c => .bind (.orPanic _ _) fun cs =>
        .bind (.writeNode _ _) fun _ => .bind (.orPanic _ _) fun b => .bind ?_ fun more => ih _ _
      exact .bind (.readNode _) fun _ => .pure _

theorem heapOnly_readNodes : ∀ as, HeapOnly (readNodes as) := by
  intro as
  induction as with
  | nil => exact .pure _
  | cons a as ih => exact .bind (.readNode _) fun _ => .bind ih fun _ => .pure _

/-- Nothing is put into the cache. -/
def Fetchless (m : M α) : Prop := ∀ s, (m s).2.cache = s.cache

theorem Fetchless.bind {m : M α} {f : α → M β} (hm : Fetchless m) (hf : ∀ a, Fetchless (f a)) : Fetchless (m >>= f) := by
  intro s
  have h1 := hm s
  rw [bind_run]
  generalize m s = o at h1 ⊢
  obtain ⟨o1, o2⟩ := o
  cases o1 with
  | ok a => exact (hf a o2).trans h1
  | error e => exact h1

theorem HeapOnly.fetchless {m : M α} (h : HeapOnly m) : Fetchless m := fun s => (h s).2

theorem fetchless_append (b : Bytes) : Fetchless (coreAppend b) := by
  intro s
  unfold coreAppend
  split <;> rfl

theorem fetchless_addChanges (ch : Changes) : Fetchless (addChanges ch) :=
  .bind (.bind (HeapOnly.orPanic _ _).fetchless fun _ => .bind (HeapOnly.bind (.readNode _) fun _ => .pure _).fetchless
    fun _ => (heapOnly_reorder _ _ _ _ _).fetchless) fun _ =>
  .bind (heapOnly_readNodes _).fetchless fun _ => fetchless_append _

theorem fetchless_createHeader (m : Option Metadata) : Fetchless (createHeader m) := by
  unfold createHeader
  refine .bind (fun _ => rfl) fun v => ?_
  split
  · exact fun _ => rfl
  · exact fetchless_append _

theorem fetchless_ensureHeader : Fetchless ensureHeader := by
  intro s
  have h2 := fetchless_createHeader none s
  unfold ensureHeader
  generalize createHeader none s = o at h2 ⊢
  obtain ⟨o1, o2⟩ := o
  cases o1 with
  | ok a => exact h2
  | error e => cases e <;> exact h2

theorem getRoot_bare_true {s : St} (h : s.core.length ≤ 1) :
    (getRoot true s).2.cache = s.cache ∧ ∀ o, (getRoot true s).1 = .ok o → o = none := by
  unfold getRoot
  rw [bind_ok (version_run s), if_pos h]
  by_cases h0 : s.core.length = 0
  · rw [if_pos ⟨h0, rfl⟩]
    have h1 := fetchless_ensureHeader s
    rw [bind_run]
    generalize ensureHeader s = o at h1 ⊢
    obtain ⟨o1, o2⟩ := o
    cases o1 with
    | ok a => exact ⟨h1, fun o ho => by cases ho; rfl⟩
    | error e => exact ⟨h1, fun o ho => by cases ho⟩
  · rw [if_neg (by omega)]
    exact ⟨rfl, fun o ho => by cases ho; rfl⟩

theorem cache_putCas {s : St} (h : s.core.length ≤ 1) (k : Bytes) (v : Option Bytes)
    (cas : Option KeyValueData → KeyValueData → Bool) : (putCompareAndSwap k v cas s).2.cache = s.cache := by
  have hc : ∀ p : Prepared (Option Nat × Option Nat), Fetchless (commitPrepared p) := by
    intro p
    cases p with
    | done a => exact fun _ => rfl
    | commit ch a => exact .bind (fetchless_addChanges ch) fun _ _ => rfl
  have hp : (putPrepare k v cas s).2.cache = s.cache := by
    obtain ⟨h1, h2⟩ := getRoot_bare_true h
    unfold putPrepare
    rw [bind_run]
    generalize getRoot true s = o at h1 h2 ⊢
    obtain ⟨o1, o2⟩ := o
    cases o1 with
    | error e => exact h1
    | ok o =>
      cases h2 o rfl
      refine Eq.trans ?_ h1
      refine Fetchless.bind (fun _ => rfl) (fun w => ?_) o2
      simp only []
      split
      · exact fun _ => rfl
      · exact .bind (.bind (HeapOnly.alloc _).fetchless fun _ _ => rfl) fun _ _ => rfl
  unfold putCompareAndSwap
  rw [bind_run]
  generalize putPrepare k v cas s = o at hp ⊢
  obtain ⟨o1, o2⟩ := o
  cases o1 with
  | ok p => exact (hc p o2).trans hp
  | error e => exact hp

theorem cache_delCas {s : St} (h : s.core.length ≤ 1) (k : Bytes)
    (cas : KeyValueData → Bool) : (delCompareAndSwap k cas s).2.cache = s.cache := by
  unfold delCompareAndSwap
  have h1 : delPrepare k cas s = (.ok (.done none), s) := by
    unfold delPrepare
    rw [bind_ok (getRoot_bare h)]
    rfl
  rw [bind_ok h1]
  rfl

/-- A call that has no tree to search fetches nothing. -/
theorem exec_bare {s : St} {d : Db} (h : Holds s d) {c : Cmd} (hc : c ≠ .reopen)
    (h2 : 2 ≤ s.core.length → c.searches = false) : (exec c s).2.cache = s.cache := by
  have hbare : c.searches = true → s.core.length ≤ 1 := fun h1 => by
    rcases Nat.lt_or_ge s.core.length 2 with h3 | h3
    · omega
    · rw [h2 h3] at h1; cases h1
  cases c with
  | version => rfl
  | createHeader m => simp only [exec]; rw [reply_after]; exact fetchless_createHeader m s
  | reopen => exact absurd rfl hc
  | get k =>
    simp only [exec]; rw [reply_after]
    unfold get
    rw [bind_ok (getRoot_bare (hbare rfl))]
    rfl
  | put k v =>
    simp only [exec]; rw [reply_after]
    unfold put
    have h1 := cache_putCas (hbare rfl) k v (fun _ _ => true)
    rw [bind_run]
    generalize putCompareAndSwap k v _ s = o at h1 ⊢
    obtain ⟨o1, o2⟩ := o
    cases o1 with
    | ok p => exact Eq.trans ((HeapOnly.bind (.orPanic _ _) fun _ => .pure _).fetchless o2) h1
    | error e => exact h1
  | putCas k v cas => simp only [exec]; rw [reply_after]; exact cache_putCas (hbare rfl) k v cas
  | del k =>
    simp only [exec]; rw [reply_after]
    unfold del
    have h1 := cache_delCas (hbare rfl) k (fun _ => true)
    rw [bind_run]
    generalize delCompareAndSwap k _ s = o at h1 ⊢
    obtain ⟨o1, o2⟩ := o
    cases o1 with
    | error e => exact h1
    | ok p =>
      refine Eq.trans ?_ h1
      simp only []
      split
      · rfl
      · split <;> rfl
  | delCas k cas => simp only [exec]; rw [reply_after]; exact cache_delCas (hbare rfl) k cas
  | traverse b sched =>
    simp only [exec]; rw [reply_after]
    unfold traverseSession
    cases hb : b.build with
    | error e => rfl
    | ok conf =>
      have hl := hbare (by simp only [Cmd.searches, hb])
      have hd : Bare s.core d := by
        rcases h.store with hb | ⟨H, t, ht, -, -⟩
        · exact hb
        · have := ht.two; omega
      simp only []
      rw [bind_run, collect_bare hd sched conf]

theorem runSt_stays {cs : List Cmd} (hcs : ∀ c ∈ cs, c ≠ .reopen) {s : St} (h : Laden s) : Laden (runSt cs s) := by
  induction cs generalizing s with
  | nil => exact h
  | cons c cs ih =>
    obtain ⟨q, e, h1, h2⟩ := h
    exact ih (fun c' h' => hcs c' (List.mem_cons_of_mem _ h')) ⟨q, e, exec_stays (hcs c (List.mem_cons_self ..)) h1, h2⟩

theorem laden_iff (s : St) : Freed s .blocks ↔ ¬ Laden s := by
  rw [freed_blocks_iff]
  constructor
  · rintro h ⟨q, e, h1, h2⟩; exact h2 (h q e h1)
  · intro h q e h1; exact Classical.byContradiction fun h2 => h ⟨q, e, h1, h2⟩

theorem freed_core_iff (s : St) : Freed s .core ↔ Freed s .blocks := ⟨fun h => h.inv .core, fun h => freed_all h _⟩

end Hyperbee
