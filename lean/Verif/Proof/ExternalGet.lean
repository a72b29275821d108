import Verif.Proof.External
import Verif.Proof.OwnRun
/-!
# What the callbacks are given

Each database behind a pointer is a handle on which only gets run, so the machinery for readers that overlap
(`Proof/Interleave`) applies to each of them.
-/

namespace Hyperbee

/-- The database behind pointer `c` was opened on that core. -/
def Opened (disk : Bytes → Option (List Bytes)) (tr : CTrace) (c : Nat) (core : List Bytes) : Prop :=
  ∃ rt dir, (CAct.openDir rt dir, CRet.ptr (.cell c)) ∈ tr ∧ dir.bind disk = some core

theorem opened_snoc {disk : Bytes → Option (List Bytes)} {tr : CTrace} {e : CAct × CRet} {c : Nat} {core : List Bytes} :
    Opened disk (tr ++ [e]) c core ↔ Opened disk tr c core ∨
      ∃ rt dir, e = (.openDir rt dir, .ptr (.cell c)) ∧ dir.bind disk = some core := by
  unfold Opened
  constructor
  · rintro ⟨rt, dir, h1, h2⟩
    rcases List.mem_append.mp h1 with h1 | h1
    · exact .inl ⟨rt, dir, h1, h2⟩
    · exact .inr ⟨rt, dir, (List.mem_singleton.mp h1).symm, h2⟩
  · rintro (⟨rt, dir, h1, h2⟩ | ⟨rt, dir, h1, h2⟩)
    · exact ⟨rt, dir, List.mem_append_left _ h1, h2⟩
    · exact ⟨rt, dir, by simp [h1], h2⟩

/-- What becomes of a cell. -/
theorem act_cell {x x' : CSt} {a : CAct} {r : CRet} (h : x.act a = .ok (r, x')) {c : Nat} (hc : c < x.heap.length) :
    x'.heap[c]? = x.heap[c]? ∨ x'.heap[c]? = some none ∨
    ∃ i t β, ∃ (y : Atom β) (k : _) (s : St), a = .turn i ∧ x.tasks[i]? = some t ∧ t.hb = c ∧ t.state = .asking (.step y k) ∧
      x.heap[c]? = some (some (.hyperbee s)) ∧ x'.heap[c]? = some (some (.hyperbee (y.run s).2)) := by
  have hset : ∀ a, (x.heap.set a none)[c]? = x.heap[c]? ∨ (x.heap.set a none)[c]? = some none := by
    intro a
    by_cases e : a = c
    · subst e; exact .inr (by rw [List.getElem?_set_self hc])
    · exact .inl (List.getElem?_set_ne e)
  have happ : ∀ l, (x.heap ++ l)[c]? = x.heap[c]? := fun l => List.getElem?_append_left hc
  cases a with
  | initRuntime ok =>
    simp only [CSt.act, CSt.initRuntime, Except.ok.injEq] at h
    split at h <;> cases h
    · exact .inl (happ _)
    · exact .inl rfl
  | closeRuntime p =>
    simp only [CSt.act, CSt.closeRuntime] at h
    split at h
    · cases h
    · split at h
      · cases h
      · cases h
        exact (hset _).imp id .inl
  | openDir rt dir =>
    simp only [CSt.act, CSt.openDir] at h
    split at h
    · cases h
    · split at h <;> cases h
      · exact .inl (happ _)
      · exact .inl rfl
  | closeHyperbee p =>
    simp only [CSt.act, CSt.closeHyperbee] at h
    split at h <;> cases h
    exact (hset _).imp id .inl
  | get rt hb key =>
    simp only [CSt.act, CSt.get] at h
    split at h <;> cases h
    exact .inl rfl
  | freeString p =>
    simp only [CSt.act, CSt.freeString] at h
    split at h <;> cases h
    exact (hset _).imp id .inl
  | freeBuffer p n =>
    simp only [CSt.act, CSt.freeBuffer] at h
    split at h
    · cases h; exact .inl rfl
    · split at h
      · split at h <;> cases h
        exact (hset _).imp id .inl
      · cases h
      · cases h
  | turn i =>
    simp only [CSt.act, CSt.turn] at h
    split at h
    · cases h; exact .inl rfl
    · rename_i t ht
      split at h
      · cases h; exact .inl rfl
      · split at h <;> cases h
        exact .inl rfl
      · rename_i β y k hst
        split at h
        · cases h
        · rename_i c' s ha
          cases h
          obtain ⟨e1, ha2⟩ := hyperbeeAt_ok.mp ha
          cases e1
          by_cases e : t.hb = c
          · subst e
            exact .inr (.inr ⟨i, t, β, y, k, s, rfl, ht, rfl, hst, ha2, List.getElem?_set_self hc⟩)
          · exact .inl (List.getElem?_set_ne e)
      · cases h
        refine .inl ?_
        show ((x.finish _).2).heap[c]? = _
        unfold CSt.finish
        split
        · unfold CSt.giveVec
          dsimp only
          split
          · exact happ _
          · simp only [CSt.give, List.append_assoc]; exact happ _
        · rfl
      · cases h; exact .inl rfl

/-- What the task was answered. -/
theorem reply_right {s0 : St} (h : Rooms s0) {c : Cmd} (hl : c.looks = true) {Γ : Names} {p : Prog Reply}
    (h1 : Ok s0 false p Γ fun Γ r => RR EqR Γ r (ideal s0 (Prog.exec c))) :
    (∀ r, p = .pure r → r = (exec c s0).1) ∧ ∀ e, p ≠ .throw e := by
  obtain ⟨Γ', _, _, h3⟩ := (sim_exec (s0 := s0) (esc := false) hl).run (inv_start h)
  rw [run_exec _ (by intro he; rw [he] at hl; cases hl)] at h3
  constructor
  · rintro r rfl
    have h2 := h1 Γ (.refl Γ)
    revert h2 h3
    cases ideal s0 (Prog.exec c) with
    | error e => exact fun h => h.elim
    | ok a' => exact fun h3 h2 => Eq.trans h2 (Eq.symm h3)
  · rintro e rfl
    have h2 := h1 Γ (.refl Γ)
    revert h2 h3
    cases ideal s0 (Prog.exec c) with
    | error e => exact fun h => h.elim
    | ok a' => exact fun h3 h2 => h2.elim

/-- What the callback was given is right, and the memory handed to it holds it until it is freed. -/
def Answered (core : List Bytes) (key : Bytes) (r : CRet) (heap : List (Option Obj)) : Prop :=
  match (exec (.get key) (St.open core)).1 with
  | .got (some (seq, some v)) => ∃ b p, r = .called 0 (.cell b) seq p v.length ∧
      (heap[b]? = some none ∨ heap[b]? = some (some (.string []))) ∧
      ((p = .empty ∧ v = []) ∨ ∃ a, p = .cell a ∧ v ≠ [] ∧ (heap[a]? = some none ∨ heap[a]? = some (some (.buffer v))))
  | _ => r = .panicked

structure BInv (disk : Bytes → Option (List Bytes)) (tr : CTrace) (x : CSt) : Prop where
  low : ∀ c core, Opened disk tr c core → c < x.heap.length
  one : ∀ c core, Opened disk tr c core → ∃ Γ s, Inv (St.open core) Γ s ∧
    (∀ s', x.heap[c]? = some (some (.hyperbee s')) → s' = s) ∧
    ∀ t ∈ x.tasks, t.hb = c → ∀ p, t.state = .asking p →
      Ok (St.open core) false p Γ fun Γ r => RR EqR Γ r (ideal (St.open core) (Prog.exec (.get t.key)))
  ans : ∀ i r, (CAct.turn i, r) ∈ tr → r ≠ .unit → ∃ t, x.tasks[i]? = some t ∧
    ∀ core, Opened disk tr t.hb core → Answered core t.key r x.heap

theorem binv_start (disk : Bytes → Option (List Bytes)) : BInv disk [] (CSt.start disk) where
  low := by rintro c core ⟨_, _, h, _⟩; cases h
  one := by rintro c core ⟨_, _, h, _⟩; cases h
  ans := by intro i r h; cases h

/-- Cells that hold a string or a buffer keep it until it is freed. -/
theorem Answered.act {core : List Bytes} {key : Bytes} {r r' : CRet} {x x' : CSt} {a : CAct} (h : Answered core key r x.heap)
    (ha : x.act a = .ok (r', x')) : Answered core key r x'.heap := by
  unfold Answered at h ⊢
  have step : ∀ (c : Nat) (o : Obj), (∀ s, o ≠ .hyperbee s) → (x.heap[c]? = some none ∨ x.heap[c]? = some (some o)) →
      (x'.heap[c]? = some none ∨ x'.heap[c]? = some (some o)) := by
    intro c o ho hc
    have hlt : c < x.heap.length := by
      rcases hc with hc | hc <;> exact (List.getElem?_eq_some_iff.mp hc).1
    rcases act_cell ha hlt with h1 | h1 | ⟨_, _, _, _, _, s, _, _, _, _, h1, _⟩
    · rwa [h1]
    · exact .inl h1
    · rw [h1] at hc
      rcases hc with hc | hc
      · cases hc
      · simp only [Option.some.injEq] at hc
        exact absurd hc.symm (ho s)
  revert h
  split
  · rename_i seq v _
    rintro ⟨b, p, h1, h2, h3⟩
    refine ⟨b, p, h1, step b _ (by simp) h2, h3.imp id ?_⟩
    rintro ⟨a, h4, h5, h6⟩
    exact ⟨a, h4, h5, step a _ (by simp) h6⟩
  · exact id

/-- The pointer a call of `hyperbee_from_storage_directory` returns is new. -/
theorem openDir_new {x x' : CSt} {rt : Ptr} {dir : Option Bytes} {c : Nat} (h : x.act (.openDir rt dir) = .ok (.ptr (.cell c), x')) :
    c = x.heap.length ∧ x'.tasks = x.tasks ∧ x'.heap.length = x.heap.length + 1 ∧
      ∃ core, dir.bind x.disk = some core ∧ x'.heap[c]? = some (some (.hyperbee (St.open core))) := by
  simp only [CSt.act, CSt.openDir] at h
  split at h
  · cases h
  · split at h
    · rename_i core hd
      cases h
      exact ⟨rfl, rfl, by simp [CSt.give], core, hd, by simp [CSt.give]⟩
    · cases h

/-- The answer given in the last turn of a task. -/
theorem finish_answered (x : CSt) (core : List Bytes) (key : Bytes) :
    Answered core key (x.finish (exec (.get key) (St.open core)).1).1 (x.finish (exec (.get key) (St.open core)).1).2.heap := by
  generalize e : (exec (.get key) (St.open core)).1 = q
  unfold Answered
  rw [e]
  split
  · rename_i seq v
    unfold CSt.finish CSt.giveVec
    by_cases hv : v = []
    · subst hv
      simp only [↓reduceIte, CSt.give]
      exact ⟨_, _, rfl, .inr (by simp), .inl ⟨rfl, trivial⟩⟩
    · simp only [hv, ↓reduceIte, CSt.give]
      refine ⟨_, _, rfl, .inr (by simp), .inr ⟨_, rfl, hv, .inr (by simp)⟩⟩
  · rename_i h
    unfold CSt.finish
    split
    · exact (h _ _ rfl).elim
    · rfl

theorem BInv.act {disk : Bytes → Option (List Bytes)} {tr : CTrace} {x x' : CSt} (hb : BInv disk tr x) (hi : CInv disk tr x)
    {a : CAct} {r : CRet} (h : x.act a = .ok (r, x')) : BInv disk (tr ++ [(a, r)]) x' := by
  have hlen := (act_fresh h).1
  have hroom := hi.room
  -- the database at `c`, when no task on it does anything but come to an end
  have same : ∀ c core, Opened disk tr c core →
      (∀ s', x'.heap[c]? = some (some (.hyperbee s')) → x.heap[c]? = some (some (.hyperbee s'))) →
      (∀ t' ∈ x'.tasks, t'.hb = c → ∀ p, t'.state = .asking p → p = Prog.exec (.get t'.key) ∨
        ∃ t ∈ x.tasks, t.hb = c ∧ t.key = t'.key ∧ t.state = .asking p) →
      ∃ Γ s, Inv (St.open core) Γ s ∧ (∀ s', x'.heap[c]? = some (some (.hyperbee s')) → s' = s) ∧
        ∀ t ∈ x'.tasks, t.hb = c → ∀ p, t.state = .asking p →
          Ok (St.open core) false p Γ fun Γ r => RR EqR Γ r (ideal (St.open core) (Prog.exec (.get t.key))) := by
    intro c core ho hh ht
    obtain ⟨Γ, s, h1, h2, h3⟩ := hb.one c core ho
    refine ⟨Γ, s, h1, fun s' hs' => h2 s' (hh s' hs'), fun t' ht' hc p hp => ?_⟩
    rcases ht t' ht' hc p hp with rfl | ⟨t, g1, g2, g3, g4⟩
    · exact sim_exec rfl
    · rw [← g3]; exact h3 t g1 g2 p g4
  refine ⟨?_, ?_, ?_⟩
  · intro c core ho
    rcases opened_snoc.mp ho with ho | ⟨rt, dir, he, hd⟩
    · exact Nat.lt_of_lt_of_le (hb.low c core ho) hlen
    · cases he
      obtain ⟨rfl, _, h3, _⟩ := openDir_new h
      omega
  · intro c core ho'
    rcases opened_snoc.mp ho' with ho | ⟨rt, dir, he, hd⟩
    · clear ho'
      have hc := hb.low c core ho
      by_cases hturn : ∃ i, a = .turn i
      · obtain ⟨i, rfl⟩ := hturn
        have h' := h
        simp only [CSt.act, CSt.turn] at h
        split at h
        · cases h; exact hb.one c core ho
        · rename_i t ht
          have hset : ∀ {st' : GetState}, ∀ t' ∈ x.tasks.set i { t with state := st' }, t' = { t with state := st' } ∨ t' ∈ x.tasks :=
            fun t' h => (List.mem_or_eq_of_mem_set h).symm
          split at h
          · cases h; exact hb.one c core ho
          · split at h
            · cases h
            · cases h
              refine same c core ho (fun _ h => h) fun t' ht' hc' p hp => ?_
              rcases hset t' ht' with rfl | ht'
              · cases hp; exact .inl rfl
              · exact .inr ⟨t', ht', hc', rfl, hp⟩
          · rename_i β y k hst
            split at h
            · cases h
            · rename_i c' s ha
              cases h
              obtain ⟨e1, ha2⟩ := hyperbeeAt_ok.mp ha
              cases e1
              by_cases e : t.hb = c
              · subst e
                obtain ⟨Γ, s1, h1, h2, h3⟩ := hb.one _ core ho
                cases h2 s ha2
                obtain ⟨Γ', g1, g2, g3⟩ := (h3 t (List.mem_of_getElem? ht) rfl _ hst).next h1 (fun h => by cases h)
                refine ⟨Γ', (y.run s).2, g2, ?_, ?_⟩
                · intro s' hs'
                  have : (x.heap.set t.hb (some (.hyperbee (y.run s).2)))[t.hb]? = some (some (.hyperbee s')) := hs'
                  rw [List.getElem?_set_self hc] at this
                  cases this; rfl
                · intro t' ht' hc' p hp
                  rcases hset t' ht' with rfl | ht'
                  · cases hp; exact g3
                  · exact (h3 t' ht' hc' p hp).mono g1
              · refine same c core ho (fun s' hs' => ?_) fun t' ht' hc' p hp => ?_
                · have : (x.heap.set t.hb (some (.hyperbee (y.run s).2)))[c]? = some (some (.hyperbee s')) := hs'
                  rwa [List.getElem?_set_ne e] at this
                · rcases hset t' ht' with rfl | ht'
                  · exact absurd hc' e
                  · exact .inr ⟨t', ht', hc', rfl, hp⟩
          · rename_i hst
            cases h
            refine same c core ho (fun s' hs' => ?_) fun t' ht' hc' p hp => ?_
            · rcases act_cell h' hc with e | e | ⟨_, _, _, _, _, _, e0, e1, _, e2, _⟩
              · rwa [← e]
              · rw [e] at hs'; cases hs'
              · cases e0; rw [ht] at e1; cases e1
                rw [hst] at e2; cases e2
            · have ht' : t' ∈ (x.finish _).2.tasks.set i { t with state := .over } := ht'
              rw [(finish_tasks _ _).1] at ht'
              rcases hset t' ht' with rfl | ht'
              · cases hp
              · exact .inr ⟨t', ht', hc', rfl, hp⟩
          · cases h
            refine same c core ho (fun _ h => h) fun t' ht' hc' p hp => ?_
            rcases hset t' ht' with rfl | ht'
            · cases hp
            · exact .inr ⟨t', ht', hc', rfl, hp⟩
      · refine same c core ho (fun s' hs' => ?_) fun t' ht' hc' p hp => ?_
        · rcases act_cell h hc with e | e | ⟨i, _, _, _, _, _, e0, _⟩
          · rwa [← e]
          · rw [e] at hs'; cases hs'
          · exact absurd ⟨i, e0⟩ hturn
        · right
          cases (act_tasks h).1 with
          | same e => rw [e] at ht'; exact ⟨t', ht', hc', rfl, hp⟩
          | get e =>
            rw [e] at ht'
            rcases List.mem_append.mp ht' with ht' | ht'
            · exact ⟨t', ht', hc', rfl, hp⟩
            · rw [List.mem_singleton.mp ht'] at hp; cases hp
          | close e =>
            rw [e] at ht'
            obtain ⟨t, g1, g2⟩ := List.mem_map.mp ht'
            split at g2 <;> subst g2
            · cases hp
            · exact ⟨t, g1, hc', rfl, hp⟩
          | goes => exact absurd ⟨_, rfl⟩ hturn
          | ends => exact absurd ⟨_, rfl⟩ hturn
    · cases he
      obtain ⟨rfl, h2, _, core', hd', h5⟩ := openDir_new h
      rw [hi.disk, hd] at hd'
      cases hd'
      refine ⟨_, St.open core, inv_start (rooms_open core), fun s' hs' => ?_, fun t ht hc => ?_⟩
      · rw [h5] at hs'; cases hs'; rfl
      · rw [h2] at ht
        have := (hroom t ht).2
        omega
  · intro i r' hr' hne
    rcases List.mem_append.mp hr' with hr' | hr'
    · obtain ⟨t, ht, hans⟩ := hb.ans i r' hr' hne
      obtain ⟨t', g1, _, g3, g4, _⟩ := (act_tasks h).1.after ht
      refine ⟨t', g1, fun core ho => ?_⟩
      rw [g3] at ho
      rw [g4]
      rcases opened_snoc.mp ho with ho | ⟨rt, dir, he, hd⟩
      · exact (hans core ho).act h
      · cases he
        obtain ⟨e, _⟩ := openDir_new h
        have := (hroom t (List.mem_of_getElem? ht)).2
        omega
    · cases List.mem_singleton.mp hr'
      have h' := h
      simp only [CSt.act, CSt.turn] at h
      split at h
      · cases h; exact absurd rfl hne
      · rename_i t ht
        have hlt := (List.getElem?_eq_some_iff.mp ht).1
        split at h
        · cases h; exact absurd rfl hne
        · split at h <;> cases h
          exact absurd rfl hne
        · split at h <;> cases h
          exact absurd rfl hne
        · rename_i q hst
          cases h
          refine ⟨{ t with state := .over }, ?_, fun core ho => ?_⟩
          · show ((x.finish q).2.tasks.set i { t with state := .over })[i]? = _
            rw [(finish_tasks _ _).1, List.getElem?_set_self hlt]
          · rcases opened_snoc.mp ho with ho | ⟨rt, dir, he, hd⟩
            · obtain ⟨Γ, s, _, _, h3⟩ := hb.one _ core ho
              have := (reply_right (rooms_open core) rfl (h3 t (List.mem_of_getElem? ht) rfl _ hst)).1 q rfl
              rw [this]
              exact finish_answered x core t.key
            · cases he
        · rename_i e hst
          cases h
          refine ⟨{ t with state := .over }, ?_, fun core ho => ?_⟩
          · show (x.tasks.set i { t with state := .over })[i]? = _
            rw [List.getElem?_set_self hlt]
          · rcases opened_snoc.mp ho with ho | ⟨rt, dir, he, hd⟩
            · obtain ⟨Γ, s, _, _, h3⟩ := hb.one _ core ho
              exact absurd rfl ((reply_right (rooms_open core) rfl (h3 t (List.mem_of_getElem? ht) rfl _ hst)).2 e)
            · cases he

theorem run_binv {disk : Bytes → Option (List Bytes)} : ∀ (acts : List CAct) {tr : CTrace} {x y : CSt}, CInv disk tr x → BInv disk tr x →
    (x.run acts).2 = .ok y → BInv disk (tr ++ acts.zip (x.run acts).1) y
  | [], tr, x, y, hi, hb, h => by
    cases h; simpa [CSt.run] using hb
  | a :: as, tr, x, y, hi, hb, h => by
    unfold CSt.run at h ⊢
    cases ha : x.act a with
    | error e => rw [ha] at h; cases h
    | ok z =>
      obtain ⟨r, x'⟩ := z
      rw [ha] at h
      have := run_binv as (hi.act ha) (hb.act hi ha) h
      simpa using this

theorem run_bTrace {disk : Bytes → Option (List Bytes)} {acts : List CAct} {y : CSt}
    (h : ((CSt.start disk).run acts).2 = .ok y) : BInv disk (cTrace disk acts) y := by
  simpa [cTrace] using run_binv acts (cinv_start disk) (binv_start disk) h

/-! ## Events of a trace -/

/-- An event of a run: what was done before it, and the states it lies between. -/
theorem cTrace_event {disk : Bytes → Option (List Bytes)} {acts : List CAct} {y : CSt} (h : ((CSt.start disk).run acts).2 = .ok y)
    {tr1 tr2 : CTrace} {a : CAct} {r : CRet} (he : cTrace disk acts = tr1 ++ (a, r) :: tr2) :
    ∃ acts1 x x', cTrace disk acts1 = tr1 ∧ ((CSt.start disk).run acts1).2 = .ok x ∧ x.act a = .ok (r, x') := by
  suffices ∀ n (acts : List CAct) (y : CSt) (tr2 : CTrace), acts.length = n → ((CSt.start disk).run acts).2 = .ok y →
      cTrace disk acts = tr1 ++ (a, r) :: tr2 →
      ∃ acts1 x x', cTrace disk acts1 = tr1 ∧ ((CSt.start disk).run acts1).2 = .ok x ∧ x.act a = .ok (r, x') from
    this _ acts y tr2 rfl h he
  clear h he y acts tr2
  intro n
  induction n with
  | zero =>
    intro acts y tr2 hl h he
    rw [List.length_eq_zero_iff.mp hl] at he
    simp [cTrace] at he
  | succ n ih =>
    intro acts y tr2 hl h he
    obtain ⟨init, b, rfl⟩ := (List.eq_nil_or_concat acts).resolve_left (by rintro rfl; cases hl)
    rw [List.concat_eq_append] at hl h he
    cases h1 : ((CSt.start disk).run init).2 with
    | error e => rw [run_bad _ _ h1] at h; cases h
    | ok x =>
      rw [run_append _ _ h1, run_one] at h
      cases hb : x.act b with
      | error e => rw [hb] at h; cases h
      | ok z =>
        obtain ⟨r', x'⟩ := z
        rw [cTrace_snoc h1 hb] at he
        rcases List.eq_nil_or_concat tr2 with rfl | ⟨tr3, e, rfl⟩
        · obtain ⟨e1, e2⟩ := List.append_inj' he rfl
          cases e2
          exact ⟨init, x, x', e1, h1, hb⟩
        · rw [List.concat_eq_append, ← List.cons_append, ← List.append_assoc] at he
          exact ih init x tr3 (by simpa using hl) h1 (List.append_inj' he rfl).1

theorem act_turn_unit {x x' : CSt} {i : Nat} {r : CRet} (h : x.act (.turn i) = .ok (r, x')) (hr : r ≠ .unit) :
    (∃ t p, x.tasks[i]? = some t ∧ t.state = .asking p) ∧ (r = .panicked ∨ ∃ c m q v n, r = .called c m q v n) := by
  cases (act_tasks h).1 with
  | same e h1 h2 h3 => exact absurd (h3 i rfl).1 hr
  | goes e h1 h2 h3 => exact absurd h3 hr
  | ends e h1 h2 h3 =>
    obtain ⟨p, hp⟩ := h2
    exact ⟨⟨_, p, h1, hp⟩, h3⟩

/-- A task to which nothing is done stays. -/
theorem TaskStep.still {x x' : CSt} {a : CAct} {r : CRet} (h : TaskStep x a r x') {i : Nat} {t : GetTask}
    (ht : x.tasks[i]? = some t) (h1 : a ≠ .turn i) (h2 : a ≠ .closeRuntime (.cell t.rt)) : x'.tasks[i]? = some t := by
  cases h with
  | same e => rw [e]; exact ht
  | get e => rw [e, List.getElem?_append_left (List.getElem?_eq_some_iff.mp ht).1]; exact ht
  | close e =>
    rw [e, List.getElem?_map, ht]
    have : ¬ t.rt = _ := fun e => h2 (by rw [e])
    simp only [Option.map_some, if_neg this]
  | goes e g1 =>
    rw [e, List.getElem?_set_ne (fun e => h1 (by rw [e]))]; exact ht
  | ends e g1 =>
    rw [e, List.getElem?_set_ne (fun e => h1 (by rw [e]))]; exact ht

/-- A turn brings a task on. -/
theorem act_turn {x x' : CSt} {i : Nat} {t : GetTask} {r : CRet} (ht : x.tasks[i]? = some t) (h : x.act (.turn i) = .ok (r, x')) :
    r ≠ .unit ∨ t.state = .over ∨
    (t.state = .spawned ∧ x'.tasks[i]? = some { t with state := .asking (Prog.exec (.get t.key)) }) ∨
    ∃ β, ∃ (y : Atom β) (k : _) (e : _), t.state = .asking (.step y k) ∧ x'.tasks[i]? = some { t with state := .asking (k e) } := by
  have hlt := (List.getElem?_eq_some_iff.mp ht).1
  simp only [CSt.act, CSt.turn, ht] at h
  split at h
  · rename_i hst; exact .inr (.inl hst)
  · rename_i hst
    split at h <;> cases h
    exact .inr (.inr (.inl ⟨hst, List.getElem?_set_self hlt⟩))
  · rename_i β y k hst
    split at h <;> cases h
    exact .inr (.inr (.inr ⟨β, y, k, _, hst, List.getElem?_set_self hlt⟩))
  · cases h
    left
    unfold CSt.finish
    split <;> simp
  · cases h; exact .inl (by simp)

end Hyperbee
