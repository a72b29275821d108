import Verif.SpecC
import Verif.Proof.ExternalGet
import Verif.Props.Demo
import Verif.Props.Contents
/-!
# Memory across the C bindings

Properties C77 and C78.
-/

namespace Hyperbee

/-! ## C77 -/

/-- A C program that keeps the rules meets nothing undefined, however the turns of the tasks fall between
its calls. -/
theorem c_rules_suffice (disk : Bytes → Option (List Bytes)) (acts : List CAct) (h : KeepsRules disk acts) :
    ∃ x, ((CSt.start disk).run acts).2 = .ok x := by
  suffices ∀ n (acts : List CAct), acts.length = n → KeepsRules disk acts →
      ∃ x, ((CSt.start disk).run acts).2 = .ok x ∧ x.Safe by
    obtain ⟨x, h1, _⟩ := this _ acts rfl h
    exact ⟨x, h1⟩
  intro n
  induction n with
  | zero =>
    intro acts hl _
    rw [List.length_eq_zero_iff.mp hl]
    exact ⟨_, rfl, fun t ht => by cases ht⟩
  | succ n ih =>
    intro acts hl h
    obtain ⟨init, a, rfl⟩ := (List.eq_nil_or_concat acts).resolve_left (by rintro rfl; cases hl)
    rw [List.concat_eq_append] at hl h ⊢
    obtain ⟨x, h1, h2⟩ := ih init (by simpa using hl) fun b c d he => h b c (d ++ [a]) (by rw [he]; simp)
    have hi := run_cTrace h1
    have ha := h init a [] rfl
    obtain ⟨r, x', h3⟩ := hi.defined h2 ha.1
    refine ⟨x', ?_, hi.safe h2 ha h3⟩
    rw [run_append _ _ h1, run_one, h3]

/-- Conversely, in a run that meets nothing undefined every call was given proper pointers: pointers
handed out for that purpose and not given back yet. -/
theorem c_rules_needed (disk : Bytes → Option (List Bytes)) (before : List CAct) (a : CAct) (after : List CAct) {y : CSt}
    (h : ((CSt.start disk).run (before ++ a :: after)).2 = .ok y) : Proper (cTrace disk before) a := by
  cases h1 : ((CSt.start disk).run before).2 with
  | error e => rw [run_bad _ _ h1] at h; cases h
  | ok x =>
    rw [run_append _ _ h1] at h
    unfold CSt.run at h
    cases ha : x.act a with
    | error e => rw [ha] at h; cases h
    | ok z => exact (run_cTrace h1).proper (r := z.1) (x' := z.2) ha

/-- The other rule is needed too.  Close a database while a get on it is not finished and would not finish
in its next turn: whatever the program does then, other than closing the runtime, the next turn of the
get is undefined. -/
theorem c_close_early (disk : Bytes → Option (List Bytes)) (before more : List CAct) (i : Nat) (rt hb : Ptr) (key : Option Bytes)
    (hg : (cGets (cTrace disk before))[i]? = some (rt, hb, key)) (hr : HasRuntime (cTrace disk before) rt)
    (hf : ¬ Finished (cTrace disk before) i) (hn : ¬ Finished (cTrace disk (before ++ [.turn i])) i)
    (hc : .closeRuntime rt ∉ more) (hm : .turn i ∈ more) :
    ∃ e, ((CSt.start disk).run (before ++ .closeHyperbee hb :: more)).2 = .error e := by
  cases h1 : ((CSt.start disk).run before).2 with
  | error e => exact ⟨e, run_bad _ _ h1⟩
  | ok x =>
    have hi := run_cTrace h1
    obtain ⟨t, ht, rfl, rfl, rfl, ho⟩ := hi.pending hg hf hr
    have hw := waits_of h1 ht ho hn
    rw [run_append _ _ h1]
    unfold CSt.run
    cases ha : x.act (.closeHyperbee (.cell t.hb)) with
    | error e => exact ⟨e, rfl⟩
    | ok z =>
      obtain ⟨r, x'⟩ := z
      have ht' : x'.tasks[i]? = some t := by
        cases (act_tasks ha).1 with
        | same e => rw [e]; exact ht
      have hlt := Nat.lt_of_lt_of_le (hi.room t (List.mem_of_getElem? ht)).2 (act_fresh ha).1
      have hgone : x'.tag t.hb ≠ some .hb := by
        intro h'
        rcases (act_tag ha _ _).mp h' with h3 | h3
        · simp [OutE] at h3
        · exact h3.2 rfl
      exact waits_run hw more ht' hlt hgone (.inl hc) (.inl hm)

/-- If the get has had a turn, closing the runtime afterwards is undefined as well: the runtime drops
the task, and the task holds a guard of a lock in the database. -/
theorem c_close_order (disk : Bytes → Option (List Bytes)) (made polled more : List CAct) (i : Nat) (rt hb : Ptr)
    (key : Option Bytes) (hg : (cGets (cTrace disk made))[i]? = some (rt, hb, key)) (hp : .turn i ∈ polled)
    (hr : HasRuntime (cTrace disk (made ++ polled)) rt) (hf : ¬ Finished (cTrace disk (made ++ polled)) i)
    (hn : ¬ Finished (cTrace disk (made ++ polled ++ [.turn i])) i) (hm : .closeRuntime rt ∈ more ∨ .turn i ∈ more) :
    ∃ e, ((CSt.start disk).run (made ++ polled ++ .closeHyperbee hb :: more)).2 = .error e := by
  cases h1 : ((CSt.start disk).run (made ++ polled)).2 with
  | error e => exact ⟨e, run_bad _ _ h1⟩
  | ok x =>
    have hi := run_cTrace h1
    cases h0 : ((CSt.start disk).run made).2 with
    | error e => rw [run_bad _ _ h0] at h1; cases h1
    | ok w =>
    have hi0 := run_cTrace h0
    rw [hi0.gets, List.getElem?_map] at hg
    obtain ⟨u, hu1, hu2⟩ := Option.map_eq_some_iff.mp hg
    cases hu2
    obtain ⟨t, ht, e1, e2, e3, hst⟩ := polled_run (i := i) polled hu1 (y := x) (by rw [run_append _ _ h0] at h1; exact h1)
    have hg' : (cGets (cTrace disk (made ++ polled)))[i]? = some (.cell u.rt, .cell u.hb, some u.key) := by
      rw [hi.gets, List.getElem?_map, ht, ← e1, ← e2, ← e3]; rfl
    obtain ⟨t', ht', _, _, _, ho⟩ := hi.pending hg' hf hr
    rw [ht] at ht'; cases ht'
    have hw := waits_of h1 ht ho hn
    rw [← e1] at hm hr
    rw [← e2]
    rw [run_append _ _ h1]
    unfold CSt.run
    cases ha : x.act (.closeHyperbee (.cell t.hb)) with
    | error e => exact ⟨e, rfl⟩
    | ok z =>
      obtain ⟨r, x'⟩ := z
      have ht' : x'.tasks[i]? = some t := by
        cases (act_tasks ha).1 with
        | same e => rw [e]; exact ht
      have hlt := Nat.lt_of_lt_of_le (hi.room t (List.mem_of_getElem? ht)).2 (act_fresh ha).1
      have hgone : x'.tag t.hb ≠ some .hb := by
        intro h'
        rcases (act_tag ha _ _).mp h' with h3 | h3
        · simp [OutE] at h3
        · exact h3.2 rfl
      exact waits_run hw more ht' hlt hgone (.inr (hst (.inl hp))) hm.symm

/-- The memory in use is what the C program was given and has not given back; no more. -/
theorem c_no_leak (disk : Bytes → Option (List Bytes)) (acts : List CAct) {y : CSt}
    (h : ((CSt.start disk).run acts).2 = .ok y) (c : Nat) :
    (∃ o, y.heap[c]? = some (some o)) ↔ HasRuntime (cTrace disk acts) (.cell c) ∨ HasHyperbee (cTrace disk acts) (.cell c) ∨
      HasString (cTrace disk acts) (.cell c) ∨ ∃ n, HasBuffer (cTrace disk acts) (.cell c) n := by
  have hi := run_cTrace h
  have key : ∀ τ, Has (cTrace disk acts) (.cell c) τ ↔ ∃ o, y.heap[c]? = some (some o) ∧ o.tag = τ := fun τ =>
    (hi.tags c τ).trans tag_some
  rw [has_rt, has_hb, has_str, key, key, key]
  constructor
  · rintro ⟨o, ho⟩
    cases o with
    | runtime => exact .inl ⟨_, ho, rfl⟩
    | hyperbee s => exact .inr (.inl ⟨_, ho, rfl⟩)
    | string b => exact .inr (.inr (.inl ⟨_, ho, rfl⟩))
    | buffer b => exact .inr (.inr (.inr ⟨b.length, has_buf.mpr ((key _).mpr ⟨_, ho, rfl⟩)⟩))
  · rintro (⟨o, ho, _⟩ | ⟨o, ho, _⟩ | ⟨o, ho, _⟩ | ⟨n, hb⟩)
    · exact ⟨o, ho⟩
    · exact ⟨o, ho⟩
    · exact ⟨o, ho⟩
    · obtain ⟨o, ho, _⟩ := (key _).mp (has_buf.mp hb)
      exact ⟨o, ho⟩

/-! Examples. -/

/-- One directory with a database of three keys. -/
def cDisk : Bytes → Option (List Bytes) := fun d =>
  if d = [98] then some (runSt [.put [48] (some [7, 8]), .put [49] none, .put [50] (some [])] St.init).core else none

/-- The calls of tests/common/c/test.c up to `hb_get`. -/
def cStart : List CAct := [.initRuntime true, .openDir (.cell 0) (some [98]), .get (.cell 0) (.cell 1) (some [48])]

/-- The rest of them: the get is run to its end, the callback frees what it was given, the program closes
the database and the runtime. -/
def cTest : List CAct :=
  cStart ++ List.replicate 22 (.turn 0) ++ [.freeString (.cell 3), .freeBuffer (.cell 2) 2, .closeHyperbee (.cell 1), .closeRuntime (.cell 0)]

/-- What it is shown. -/
theorem cTest_run : ((CSt.start cDisk).run cTest).1 = [.ptr (.cell 0), .ptr (.cell 1), .code 0] ++ List.replicate 21 .unit ++
    [.called 0 (.cell 3) 1 (.cell 2) 2, .unit, .unit, .unit, .unit] := by
  decide +kernel

/-- Whether a run was defined. -/
def ranFine : Except Ub CSt → Bool
  | .ok _ => true
  | .error _ => false

theorem ranFine_iff {e : Except Ub CSt} : ranFine e = true ↔ ∃ x, e = .ok x := by
  cases e <;> simp [ranFine]

/-- tests/common/c/test.c keeps the rules. -/
example : KeepsRules cDisk cTest := by
  obtain ⟨y, hy⟩ := ranFine_iff.mp (show ranFine ((CSt.start cDisk).run cTest).2 = true by decide +kernel)
  intro before a after he
  refine ⟨c_rules_needed cDisk before a after (by rw [← he]; exact hy), ?_⟩
  rintro hb rfl i rt key hg
  have hlen : before.length = 27 := by
    have h1 : ∀ n < cTest.length, (match cTest[n]? with | some (.closeHyperbee _) => n == 27 | _ => true) = true := by
      decide +kernel
    have h2 := h1 before.length (by rw [he]; simp)
    rw [he] at h2
    simpa using h2
  have hb' : before = cTest.take 27 := by rw [he, ← hlen]; simp
  have hf : Finished (cTrace cDisk before) 0 := by
    refine ⟨.called 0 (.cell 3) 1 (.cell 2) 2, ?_, .inr ⟨_, _, _, _, _, rfl⟩⟩
    rw [hb']
    decide +kernel
  have hl : (cGets (cTrace cDisk before)).length = 1 := by rw [hb']; decide +kernel
  have : i < 1 := by rw [← hl]; exact (List.getElem?_eq_some_iff.mp hg).1
  obtain rfl : i = 0 := by omega
  exact .inl hf

/-- Afterwards nothing is left. -/
example : (match ((CSt.start cDisk).run cTest).2 with
    | .ok x => x.heap.all Option.isNone
    | .error _ => false) = true := by
  decide +kernel

/-- Closing the database at any time before the get's last turn makes that turn undefined; just before it
(the get has returned, the callback has not been called) it does not matter. -/
example : ∀ n < 21, ranFine ((CSt.start cDisk).run (cStart ++ List.replicate n (.turn 0) ++
    .closeHyperbee (.cell 1) :: List.replicate (22 - n) (.turn 0))).2 = false := by
  decide +kernel

example : ranFine ((CSt.start cDisk).run (cStart ++ List.replicate 21 (.turn 0) ++
    [.closeHyperbee (.cell 1), .turn 0])).2 = true := by
  decide +kernel

/-- Closing the database and then the runtime: undefined once the get has had its first turn.  The other way
round it is always fine. -/
example : ∀ n < 22, ranFine ((CSt.start cDisk).run (cStart ++ List.replicate n (.turn 0) ++
      [.closeHyperbee (.cell 1), .closeRuntime (.cell 0)])).2 = (n == 0 || n == 21) ∧
    ranFine ((CSt.start cDisk).run (cStart ++ List.replicate n (.turn 0) ++
      [.closeRuntime (.cell 0), .turn 0, .closeHyperbee (.cell 1)])).2 = true := by
  decide +kernel

/-- The hypotheses of `c_close_early` and of `c_close_order` are met after three turns. -/
example : (cGets (cTrace cDisk (cStart ++ [.turn 0, .turn 0, .turn 0])))[0]? = some (.cell 0, .cell 1, some [48]) ∧
    HasRuntime (cTrace cDisk (cStart ++ [.turn 0, .turn 0, .turn 0])) (.cell 0) ∧
    ¬ Finished (cTrace cDisk (cStart ++ [.turn 0, .turn 0, .turn 0])) 0 ∧
    ¬ Finished (cTrace cDisk (cStart ++ [.turn 0, .turn 0, .turn 0] ++ [.turn 0])) 0 := by
  have e : cTrace cDisk (cStart ++ [.turn 0, .turn 0, .turn 0] ++ [.turn 0]) = (.initRuntime true, .ptr (.cell 0)) ::
      (.openDir (.cell 0) (some [98]), .ptr (.cell 1)) :: (.get (.cell 0) (.cell 1) (some [48]), .code 0) ::
      List.replicate 4 (.turn 0, .unit) := by decide +kernel
  have e' : cTrace cDisk (cStart ++ [.turn 0, .turn 0, .turn 0]) = (.initRuntime true, .ptr (.cell 0)) ::
      (.openDir (.cell 0) (some [98]), .ptr (.cell 1)) :: (.get (.cell 0) (.cell 1) (some [48]), .code 0) ::
      List.replicate 3 (.turn 0, .unit) := by decide +kernel
  rw [e, e']
  refine ⟨rfl, ⟨[], _, _, rfl, ⟨by simp, true, rfl⟩, by simp⟩, ?_, ?_⟩ <;>
    (rintro ⟨r, h1, h2⟩; simp at h1; subst h1; simp at h2)

/-- Other ways to go wrong: a null key, even an empty one; a pointer returned for a directory that could not be
opened; a buffer freed with another length; a string freed twice; a database used as a runtime. -/
example : ranFine ((CSt.start cDisk).run [.initRuntime true, .openDir (.cell 0) (some [98]), .get (.cell 0) (.cell 1) none]).2 = false ∧
    ranFine ((CSt.start cDisk).run [.initRuntime true, .openDir (.cell 0) (some [97]), .closeHyperbee .null]).2 = false ∧
    ranFine ((CSt.start cDisk).run (cTest.take 25 ++ [.freeBuffer (.cell 2) 1])).2 = false ∧
    ranFine ((CSt.start cDisk).run (cTest.take 25 ++ [.freeString (.cell 3), .freeString (.cell 3)])).2 = false ∧
    ranFine ((CSt.start cDisk).run [.initRuntime true, .openDir (.cell 0) (some [98]), .closeRuntime (.cell 1)]).2 = false := by
  decide +kernel

/-! ## C78 -/

/-- What a callback should be given, when the get found `seq` and `value`: no error, an empty message, the
block, and the value in memory of its own. -/
def RightCall (tr : CTrace) (y : CSt) (seq : Nat) (value : Bytes) (r : CRet) : Prop :=
  ∃ m p, r = .called 0 m seq p value.length ∧
    (HasString tr m → ∃ b, m = .cell b ∧ y.heap[b]? = some (some (.string []))) ∧
    (HasBuffer tr p value.length → (p = .empty ∧ value = []) ∨ ∃ b, p = .cell b ∧ y.heap[b]? = some (some (.buffer value)))

/-- In every run that meets nothing undefined, whatever gets overlap on whatever databases: a callback is
called only if a get alone on that directory finds the key with a value, and is given just that; the
memory it is given holds it until it is given back.  In all other cases the task panics. -/
theorem c_callback_right (disk : Bytes → Option (List Bytes)) (acts : List CAct) {y : CSt}
    (h : ((CSt.start disk).run acts).2 = .ok y) (i : Nat) {rt hb : Ptr} {key : Option Bytes}
    (hg : (cGets (cTrace disk acts))[i]? = some (rt, hb, key)) {rt' : Ptr} {dir : Option Bytes} {core : List Bytes}
    (ho : (.openDir rt' dir, .ptr hb) ∈ cTrace disk acts) (hd : dir.bind disk = some core) {r : CRet}
    (hr : (.turn i, r) ∈ cTrace disk acts) (hn : r ≠ .unit) :
    ∃ k, key = some k ∧
      ((∃ seq v, (exec (.get k) (St.open core)).1 = .got (some (seq, some v)) ∧ RightCall (cTrace disk acts) y seq v r) ∨
       ((∀ seq v, (exec (.get k) (St.open core)).1 ≠ .got (some (seq, some v))) ∧ r = .panicked)) := by
  have hi := run_cTrace h
  obtain ⟨t, ht, hans⟩ := (run_bTrace h).ans i r hr hn
  rw [hi.gets, List.getElem?_map, ht] at hg
  cases hg
  refine ⟨t.key, rfl, ?_⟩
  have := hans core ⟨rt', dir, ho, hd⟩
  unfold Answered at this
  split at this
  · rename_i seq v he
    obtain ⟨b, p, rfl, h2, h3⟩ := this
    refine .inl ⟨seq, v, he, _, p, rfl, fun hs => ⟨b, rfl, ?_⟩, fun hb => h3.imp id ?_⟩
    · obtain ⟨o, g1, _⟩ := tag_some.mp ((hi.tags _ _).mp (has_str.mp hs))
      rw [g1] at h2 ⊢
      rcases h2 with h2 | h2
      · cases h2
      · exact h2
    · rintro ⟨a, rfl, _, h4⟩
      obtain ⟨o, g1, _⟩ := tag_some.mp ((hi.tags _ _).mp (has_buf.mp hb))
      rw [g1] at h4
      refine ⟨a, rfl, ?_⟩
      rcases h4 with h4 | h4
      · cases h4
      · rw [g1, h4]
  · rename_i he
    exact .inr ⟨fun seq v e => he seq v e, this⟩

/-- The directory of a database pointer is known and does not change: one call returned the pointer, and
it found that directory. -/
theorem c_opened_once (disk : Bytes → Option (List Bytes)) (acts : List CAct) {y : CSt}
    (h : ((CSt.start disk).run acts).2 = .ok y) {i : Nat} {rt hb : Ptr} {key : Option Bytes}
    (hg : (cGets (cTrace disk acts))[i]? = some (rt, hb, key)) :
    ∃ before rt' dir core after, cTrace disk acts = before ++ (.openDir rt' dir, .ptr hb) :: after ∧
      dir.bind disk = some core ∧ ∀ e ∈ before ++ after, ∀ rt'' dir', e ≠ (.openDir rt'' dir', .ptr hb) := by
  have hmem : ∃ r, (CAct.get rt hb key, r) ∈ cTrace disk acts := by
    have := List.mem_of_getElem? hg
    unfold cGets at this
    obtain ⟨e, h1, h2⟩ := List.mem_filterMap.mp this
    obtain ⟨a, r⟩ := e
    cases a <;> cases h2
    exact ⟨r, h1⟩
  obtain ⟨r, hmem⟩ := hmem
  obtain ⟨tr1, tr2, he⟩ := List.append_of_mem hmem
  obtain ⟨acts1, x1, x1', g1, g2, g3⟩ := cTrace_event h he
  have hi1 := run_cTrace g2
  obtain ⟨_, hh, _⟩ := hi1.proper g3
  rw [g1] at hi1 hh
  obtain ⟨c, hc⟩ : ∃ c, hb = .cell c := by
    obtain ⟨c, _, e, _⟩ := hi1.cell (has_hb.mp hh) (by simp)
    exact ⟨c, e⟩
  subst hc
  obtain ⟨b, e, d, hbd, ⟨_, rt', dir, rfl⟩, _⟩ := hh
  have hes : cTrace disk acts = b ++ (.openDir rt' dir, .ptr (.cell c)) :: (d ++ (.get rt (.cell c) key, r) :: tr2) := by
    rw [he, hbd]; simp
  obtain ⟨_, x2, _, k1, k2, k3⟩ := cTrace_event h hes
  obtain ⟨rfl, _, _, core, hcore, _⟩ := openDir_new k3
  rw [(run_cTrace k2).disk] at hcore
  refine ⟨b, rt', dir, core, _, hes, hcore, ?_⟩
  rintro e he' rt'' dir' rfl
  have twice : ∀ t1 t2 t3 rt1 dir1 rt2 dir2, cTrace disk acts = t1 ++ (.openDir rt1 dir1, .ptr (.cell x2.heap.length)) :: t2 ++
      (.openDir rt2 dir2, .ptr (.cell x2.heap.length)) :: t3 → False := by
    intro t1 t2 t3 rt1 dir1 rt2 dir2 ht
    obtain ⟨_, x3, _, l1, l2, l3⟩ := cTrace_event h ht
    obtain ⟨e1, _⟩ := openDir_new l3
    have ht' : cTrace disk acts = t1 ++ (.openDir rt1 dir1, .ptr (.cell x2.heap.length)) ::
        (t2 ++ (.openDir rt2 dir2, .ptr (.cell x2.heap.length)) :: t3) := by rw [ht]; simp
    obtain ⟨_, x4, _, m1, m2, m3⟩ := cTrace_event h ht'
    obtain ⟨_, _, _, core', hcore', _⟩ := openDir_new m3
    rw [(run_cTrace m2).disk] at hcore'
    have := (run_bTrace l2).low x2.heap.length core' ⟨rt1, dir1, by rw [l1]; simp, hcore'⟩
    omega
  rcases List.mem_append.mp he' with he' | he'
  · obtain ⟨t1, t2, rfl⟩ := List.append_of_mem he'
    exact twice t1 t2 _ _ _ _ _ hes
  · obtain ⟨t1, t2, e⟩ := List.append_of_mem he'
    exact twice b t1 t2 rt' dir rt'' dir' (by rw [hes, e]; simp only [List.append_assoc, List.cons_append])

/-- A get calls back (or panics) at most once. -/
theorem c_callback_once (disk : Bytes → Option (List Bytes)) (acts : List CAct) {y : CSt}
    (h : ((CSt.start disk).run acts).2 = .ok y) (i : Nat) (tr1 tr2 tr3 : CTrace) (r r' : CRet)
    (he : cTrace disk acts = tr1 ++ (.turn i, r) :: tr2 ++ (.turn i, r') :: tr3) : r = .unit ∨ r' = .unit := by
  by_cases h1 : r = .unit
  · exact .inl h1
  by_cases h2 : r' = .unit
  · exact .inr h2
  obtain ⟨_, x, _, g1, g2, g3⟩ := cTrace_event h he
  obtain ⟨⟨t, p, k1, k2⟩, _⟩ := act_turn_unit g3 h2
  have he' : cTrace disk acts = tr1 ++ (.turn i, r) :: (tr2 ++ (.turn i, r') :: tr3) := by rw [he]; simp
  obtain ⟨_, _, _, _, _, l3⟩ := cTrace_event h he'
  obtain ⟨_, hr⟩ := act_turn_unit l3 h1
  obtain ⟨u, m1, m2⟩ := (run_cTrace g2).fin i ⟨r, by rw [g1]; simp, hr⟩
  rw [k1] at m1; cases m1
  rw [k2] at m2; cases m2

/-- A get whose runtime stays open and gives it turns again and again comes to call back or to panic. -/
theorem c_get_ends (disk : Bytes → Option (List Bytes)) (g : Nat → CAct)
    (hok : ∀ n, ∃ x, ((CSt.start disk).run ((List.range n).map g)).2 = .ok x) {i n₀ : Nat} {rt hb : Ptr} {key : Option Bytes}
    (hg : (cGets (cTrace disk ((List.range n₀).map g)))[i]? = some (rt, hb, key))
    (hr : HasRuntime (cTrace disk ((List.range n₀).map g)) rt) (hc : ∀ n, n₀ ≤ n → g n ≠ .closeRuntime rt)
    (hf : ∀ n, ∃ m, n ≤ m ∧ g m = .turn i) :
    ∃ n r, (.turn i, r) ∈ cTrace disk ((List.range n).map g) ∧ r ≠ .unit := by
  apply Classical.byContradiction
  intro hno
  have hno' : ∀ n r, (CAct.turn i, r) ∈ cTrace disk ((List.range n).map g) → r = .unit := fun n r h =>
    Classical.byContradiction fun h' => hno ⟨n, r, h, h'⟩
  have hsucc : ∀ n x x', ((CSt.start disk).run ((List.range n).map g)).2 = .ok x →
      ((CSt.start disk).run ((List.range (n + 1)).map g)).2 = .ok x' → ∃ r, x.act (g n) = .ok (r, x') ∧
        cTrace disk ((List.range (n + 1)).map g) = cTrace disk ((List.range n).map g) ++ [(g n, r)] := by
    intro n x x' h1 h2
    rw [List.range_succ, List.map_append, List.map_cons, List.map_nil] at h2 ⊢
    rw [run_append _ _ h1, run_one] at h2
    cases ha : x.act (g n) with
    | error e => rw [ha] at h2; cases h2
    | ok z =>
      obtain ⟨r, x''⟩ := z
      rw [ha] at h2
      cases h2
      exact ⟨r, rfl, cTrace_snoc h1 ha⟩
  obtain ⟨x0, h0⟩ := hok n₀
  have hi0 := run_cTrace h0
  obtain ⟨t, ht, rfl, rfl, rfl, hst⟩ := hi0.pending hg (by
    rintro ⟨r, h1, h2⟩
    rw [hno' _ r h1] at h2
    simp at h2) hr
  -- the task never comes to its end
  have hgo : ∀ (st : GetState), st ≠ .over → ∀ n x, n₀ ≤ n → ((CSt.start disk).run ((List.range n).map g)).2 = .ok x →
      x.tasks[i]? = some { t with state := st } → ∃ m x' st', n ≤ m ∧
        ((CSt.start disk).run ((List.range m).map g)).2 = .ok x' ∧ x'.tasks[i]? = some { t with state := st' } ∧
        ((st = .spawned ∧ st' = .asking (Prog.exec (.get t.key))) ∨
          ∃ β, ∃ (y : Atom β) (k : _) (e : _), st = .asking (.step y k) ∧ st' = .asking (k e)) := by
    intro st hst n x hn hx htx
    obtain ⟨m, hm1, hm2⟩ := hf n
    obtain ⟨d, rfl⟩ : ∃ d, m = n + d := ⟨m - n, by omega⟩
    clear hm1
    induction d generalizing n x with
    | zero =>
      obtain ⟨x', hx'⟩ := hok (n + 1)
      obtain ⟨r, h1, h2⟩ := hsucc n x x' hx hx'
      rw [Nat.add_zero] at hm2
      rw [hm2] at h1 h2
      rcases act_turn htx h1 with h3 | h3 | ⟨h3, h4⟩ | ⟨β, y, k, e, h3, h4⟩
      · exact absurd (hno' (n + 1) r (by rw [h2]; simp)) h3
      · exact absurd h3 hst
      · exact ⟨n + 1, x', _, by omega, hx', h4, .inl ⟨h3, rfl⟩⟩
      · exact ⟨n + 1, x', _, by omega, hx', h4, .inr ⟨β, y, k, e, h3, rfl⟩⟩
    | succ d ih =>
      obtain ⟨x', hx'⟩ := hok (n + 1)
      obtain ⟨r, h1, h2⟩ := hsucc n x x' hx hx'
      by_cases hgn : g n = .turn i
      · rw [hgn] at h1 h2
        rcases act_turn htx h1 with h3 | h3 | ⟨h3, h4⟩ | ⟨β, y, k, e, h3, h4⟩
        · exact absurd (hno' (n + 1) r (by rw [h2]; simp)) h3
        · exact absurd h3 hst
        · exact ⟨n + 1, x', _, by omega, hx', h4, .inl ⟨h3, rfl⟩⟩
        · exact ⟨n + 1, x', _, by omega, hx', h4, .inr ⟨β, y, k, e, h3, rfl⟩⟩
      · have hstill := (act_tasks h1).1.still htx hgn (hc n hn)
        obtain ⟨m, x'', st', l1, l2, l3, l4⟩ := ih (n + 1) x' (by omega) hx' hstill (by rw [← hm2]; congr 1; omega)
        exact ⟨m, x'', st', by omega, l2, l3, l4⟩
  have hask : ∀ p : Prog Reply, ∀ n x, n₀ ≤ n → ((CSt.start disk).run ((List.range n).map g)).2 = .ok x →
      x.tasks[i]? = some { t with state := .asking p } → False := by
    intro p
    induction p with
    | pure a =>
      intro n x hn hx htx
      obtain ⟨_, _, _, _, _, _, h | ⟨_, _, _, _, h, _⟩⟩ := hgo _ (by simp) n x hn hx htx
      · cases h.1
      · cases h
    | throw e =>
      intro n x hn hx htx
      obtain ⟨_, _, _, _, _, _, h | ⟨_, _, _, _, h, _⟩⟩ := hgo _ (by simp) n x hn hx htx
      · cases h.1
      · cases h
    | step y k ih =>
      intro n x hn hx htx
      obtain ⟨m, x', st', h1, h2, h3, h4 | ⟨_, _, _, e, h4, h5⟩⟩ := hgo _ (by simp) n x hn hx htx
      · cases h4.1
      · cases h4
        subst h5
        exact ih e m x' (by omega) h2 h3
  obtain ⟨m, x', st', h1, h2, h3, h4⟩ := hgo t.state hst n₀ x0 (Nat.le_refl _) h0 ht
  rcases h4 with ⟨_, rfl⟩ | ⟨_, _, _, e, _, rfl⟩
  · exact hask _ m x' h1 h2 h3
  · exact hask _ m x' h1 h2 h3

/-- If the directory holds what some history of calls has written, then what a get alone on it finds is what
the handle that wrote it would find. -/
theorem c_get_database {s : St} (hs : Reachable s) (k : Bytes) : (exec (.get k) (St.open s.core)).1 = (exec (.get k) s).1 := by
  have := (cache_invisible hs [.get k]).1
  simpa [runReplies, run] using this

/-! Two gets overlap: each is given its own value; that of the second has no bytes, and no memory. -/
example : ((CSt.start cDisk).run (cStart ++ .get (.cell 0) (.cell 1) (some [50]) ::
      (List.replicate 23 [.turn 0, .turn 1]).flatten)).1.filter (fun r => r ≠ .unit) =
    [.ptr (.cell 0), .ptr (.cell 1), .code 0, .code 0, .called 0 (.cell 2) 3 .empty 0, .called 0 (.cell 4) 1 (.cell 3) 2] := by
  decide +kernel

/-- A key that is there without a value, and one that is not there: the task panics. -/
example : .panicked ∈ ((CSt.start cDisk).run ([.initRuntime true, .openDir (.cell 0) (some [98]), .get (.cell 0) (.cell 1) (some [49])] ++
      List.replicate 30 (.turn 0))).1 ∧
    .panicked ∈ ((CSt.start cDisk).run ([.initRuntime true, .openDir (.cell 0) (some [98]), .get (.cell 0) (.cell 1) (some [51])] ++
      List.replicate 30 (.turn 0))).1 := by
  decide +kernel

end Hyperbee
