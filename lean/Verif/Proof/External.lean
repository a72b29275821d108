import Verif.SpecC
/-!
# The C bindings: the trace tells what is in memory
-/

namespace Hyperbee

theorem held_snoc {tr : CTrace} {e : CAct × CRet} {out : CAct × CRet → Prop} {back : CAct → Prop} :
    Held (tr ++ [e]) out back ↔ out e ∨ (Held tr out back ∧ ¬ back e.1) := by
  constructor
  · rintro ⟨l, f, r, h1, h2, h3⟩
    rcases List.eq_nil_or_concat r with rfl | ⟨r', g, rfl⟩
    · have := List.append_inj_right' h1 rfl
      cases this; exact .inl h2
    · have h4 : tr ++ [e] = (l ++ f :: r') ++ [g] := by simpa using h1
      obtain ⟨h5, h6⟩ := List.append_inj' h4 rfl
      cases h6
      exact .inr ⟨⟨l, f, r', h5, h2, fun e' he' => h3 e' (by simp [he'])⟩, h3 e (by simp)⟩
  · rintro (h | ⟨⟨l, f, r, h1, h2, h3⟩, h4⟩)
    · exact ⟨tr, e, [], rfl, h, by simp⟩
    · refine ⟨l, f, r ++ [e], by rw [h1]; simp, h2, fun e' he' => ?_⟩
      rcases List.mem_append.mp he' with h | h
      · exact h3 e' h
      · rw [List.mem_singleton.mp h]; exact h4

theorem held_nil {out : CAct × CRet → Prop} {back : CAct → Prop} : ¬ Held [] out back := by
  rintro ⟨l, e, r, h, _⟩; simp at h

/-- What a piece of memory is. -/
inductive Tag where
  | rt
  | hb
  | str
  | buf (n : Nat)
deriving DecidableEq

def Obj.tag : Obj → Tag
  | .runtime => .rt
  | .hyperbee _ => .hb
  | .string _ => .str
  | .buffer b => .buf b.length

/-- The tag of the object in a cell. -/
def CSt.tag (x : CSt) (c : Nat) : Option Tag :=
  match x.heap[c]? with
  | some (some o) => some o.tag
  | _ => none

/-- A pointer of that kind is handed out. -/
def OutE (e : CAct × CRet) (p : Ptr) : Tag → Prop
  | .rt => p ≠ .null ∧ ∃ ok, e = (.initRuntime ok, .ptr p)
  | .hb => p ≠ .null ∧ ∃ rt dir, e = (.openDir rt dir, .ptr p)
  | .str => ∃ i c q v n, e = (.turn i, .called c p q v n)
  | .buf n => ∃ i c m q, e = (.turn i, .called c m q p n)

/-- The call that gives it back. -/
def backOf (p : Ptr) : Tag → CAct
  | .rt => .closeRuntime p
  | .hb => .closeHyperbee p
  | .str => .freeString p
  | .buf n => .freeBuffer p n

theorem backOf_inj {p p' : Ptr} {τ τ' : Tag} (h : backOf p τ = backOf p' τ') : p = p' ∧ τ = τ' := by
  cases τ <;> cases τ' <;> simp_all [backOf]

/-- A pointer of that kind has been handed out and not been given back. -/
def Has (tr : CTrace) (p : Ptr) (τ : Tag) : Prop := Held tr (fun e => OutE e p τ) fun a => a = backOf p τ

theorem has_rt {tr : CTrace} {p : Ptr} : HasRuntime tr p ↔ Has tr p .rt := Iff.rfl
theorem has_hb {tr : CTrace} {p : Ptr} : HasHyperbee tr p ↔ Has tr p .hb := Iff.rfl
theorem has_str {tr : CTrace} {p : Ptr} : HasString tr p ↔ Has tr p .str := Iff.rfl
theorem has_buf {tr : CTrace} {p : Ptr} {n : Nat} : HasBuffer tr p n ↔ Has tr p (.buf n) := Iff.rfl

theorem has_snoc {tr : CTrace} {e : CAct × CRet} {p : Ptr} {τ : Tag} :
    Has (tr ++ [e]) p τ ↔ OutE e p τ ∨ (Has tr p τ ∧ e.1 ≠ backOf p τ) := held_snoc

theorem has_nil {p : Ptr} {τ : Tag} : ¬ Has [] p τ := held_nil

theorem object_ok {x : CSt} {p : Ptr} {c : Nat} {o : Obj} :
    x.object p = .ok (c, o) ↔ p = .cell c ∧ x.heap[c]? = some (some o) := by
  cases p with
  | null => simp [CSt.object]
  | empty => simp [CSt.object]
  | cell a =>
    simp only [CSt.object, Ptr.cell.injEq]
    cases h : x.heap[a]? with
    | none => 
      simp only [reduceCtorEq, false_iff]
      rintro ⟨rfl, h'⟩; rw [h] at h'; cases h'
    | some y =>
      cases y with
      | none => 
        simp only [reduceCtorEq, false_iff]
        rintro ⟨rfl, h'⟩; rw [h] at h'; cases h'
      | some o' =>
        simp only [Except.ok.injEq, Prod.mk.injEq]
        constructor
        · rintro ⟨rfl, rfl⟩; exact ⟨rfl, h⟩
        · rintro ⟨rfl, h'⟩; rw [h] at h'; cases h'; exact ⟨rfl, rfl⟩

theorem runtimeAt_ok {x : CSt} {p : Ptr} {c : Nat} :
    x.runtimeAt p = .ok c ↔ p = .cell c ∧ x.heap[c]? = some (some .runtime) := by
  unfold CSt.runtimeAt
  cases h : x.object p with
  | error e =>
    simp only [reduceCtorEq, false_iff]
    intro h'; rw [object_ok.mpr h'] at h; cases h
  | ok y =>
    obtain ⟨a, o⟩ := y
    have := object_ok.mp h
    constructor
    · intro h'; cases o <;> simp at h'; subst h'; exact this
    · intro h'; rw [object_ok.mpr h'] at h; cases h; rfl

theorem hyperbeeAt_ok {x : CSt} {p : Ptr} {c : Nat} {s : St} :
    x.hyperbeeAt p = .ok (c, s) ↔ p = .cell c ∧ x.heap[c]? = some (some (.hyperbee s)) := by
  unfold CSt.hyperbeeAt
  cases h : x.object p with
  | error e =>
    simp only [reduceCtorEq, false_iff]
    intro h'; rw [object_ok.mpr h'] at h; cases h
  | ok y =>
    obtain ⟨a, o⟩ := y
    have := object_ok.mp h
    constructor
    · intro h'; cases o <;> simp at h'; obtain ⟨rfl, rfl⟩ := h'; exact this
    · intro h'; rw [object_ok.mpr h'] at h; cases h; rfl

theorem tag_some {x : CSt} {c : Nat} {τ : Tag} : x.tag c = some τ ↔ ∃ o, x.heap[c]? = some (some o) ∧ o.tag = τ := by
  unfold CSt.tag
  rcases h : x.heap[c]? with _ | _ | o <;> simp

/-- After `give`: one more cell. -/
theorem tag_give {x : CSt} {o : Obj} {c : Nat} {τ : Tag} :
    (x.give o).2.tag c = some τ ↔ (c = x.heap.length ∧ τ = o.tag) ∨ x.tag c = some τ := by
  rw [tag_some, tag_some]
  simp only [CSt.give]
  rcases Nat.lt_trichotomy c x.heap.length with h | h | h
  · rw [List.getElem?_append_left h]
    constructor
    · exact .inr
    · rintro (⟨h', _⟩ | h')
      · omega
      · exact h'
  · subst h
    rw [List.getElem?_append_right (Nat.le_refl _)]
    simp [eq_comm]
  · rw [List.getElem?_eq_none (by simp; omega), List.getElem?_eq_none (by omega)]
    simp; omega

theorem tag_free {x : CSt} {a c : Nat} {τ : Tag} : (x.free a).tag c = some τ ↔ c ≠ a ∧ x.tag c = some τ := by
  rw [tag_some, tag_some]
  simp only [CSt.free, List.getElem?_set]
  by_cases h : a = c
  · subst h
    simp only [if_pos, ne_eq, not_true_eq_false, false_and, iff_false]
    split <;> simp
  · rw [if_neg h]
    simp [Ne.symm h]

theorem tag_lt {x : CSt} {c : Nat} {τ : Tag} (h : x.tag c = some τ) : c < x.heap.length := by
  obtain ⟨o, h, _⟩ := tag_some.mp h
  exact (List.getElem?_eq_some_iff.mp h).1

theorem tag_free_back {x : CSt} {a : Nat} {σ : Tag} (ha : x.tag a = some σ) {c : Nat} {τ : Tag} :
    (x.free a).tag c = some τ ↔ x.tag c = some τ ∧ backOf (.cell a) σ ≠ backOf (.cell c) τ := by
  rw [tag_free]
  constructor
  · rintro ⟨h1, h2⟩
    refine ⟨h2, fun h => ?_⟩
    have := (backOf_inj h).1
    simp at this; omega
  · rintro ⟨h1, h2⟩
    refine ⟨fun h => ?_, h1⟩
    subst h
    rw [ha] at h1
    cases h1
    exact h2 rfl

theorem tag_heap {x y : CSt} (h : x.heap = y.heap) (c : Nat) : x.tag c = y.tag c := by
  simp only [CSt.tag, h]

theorem outE_unit {a : CAct} {p : Ptr} {τ : Tag} : ¬ OutE (a, .unit) p τ := by
  cases τ <;> simp [OutE]

theorem outE_code {a : CAct} {n : Int} {p : Ptr} {τ : Tag} : ¬ OutE (a, .code n) p τ := by
  cases τ <;> simp [OutE]

theorem outE_panicked {a : CAct} {p : Ptr} {τ : Tag} : ¬ OutE (a, .panicked) p τ := by
  cases τ <;> simp [OutE]

theorem outE_null {a : CAct} {c : Nat} {τ : Tag} : ¬ OutE (a, .ptr .null) (.cell c) τ := by
  cases τ <;> simp [OutE]

/-- The end of a task: which memory there is afterwards. -/
theorem finish_tag {x : CSt} (rep : Reply) (i c : Nat) (τ : Tag) :
    (x.finish rep).2.tag c = some τ ↔ OutE (.turn i, (x.finish rep).1) (.cell c) τ ∨ x.tag c = some τ := by
  unfold CSt.finish
  split
  · rename_i q v
    simp only [tag_give]
    unfold CSt.giveVec
    split
    · rename_i hv
      cases τ <;> simp [OutE, CSt.give, Obj.tag, eq_comm]
    · simp only [tag_give]
      cases τ <;> simp [OutE, CSt.give, Obj.tag, eq_comm]
  · simp [outE_panicked]

/-- One action: which memory there is afterwards. -/
theorem act_tag {x x' : CSt} {a : CAct} {r : CRet} (h : x.act a = .ok (r, x')) (c : Nat) (τ : Tag) :
    x'.tag c = some τ ↔ OutE (a, r) (.cell c) τ ∨ (x.tag c = some τ ∧ a ≠ backOf (.cell c) τ) := by
  cases a with
  | initRuntime ok =>
    simp only [CSt.act, CSt.initRuntime, Except.ok.injEq] at h
    have hb : CAct.initRuntime ok ≠ backOf (.cell c) τ := by cases τ <;> simp [backOf]
    split at h
    · cases h
      rw [tag_give]
      cases τ <;> simp [OutE, backOf, CSt.give, Obj.tag, eq_comm]
    · cases h
      simp [outE_null, hb]
  | closeRuntime p =>
    simp only [CSt.act, CSt.closeRuntime] at h
    split at h
    · cases h
    · rename_i a ha
      obtain ⟨rfl, ha2⟩ := runtimeAt_ok.mp ha
      split at h
      · cases h
      · cases h
        change (x.free a).tag c = some τ ↔ _
        rw [tag_free_back (tag_some.mpr ⟨_, ha2, rfl⟩)]
        simp only [outE_unit, false_or]
        exact Iff.rfl
  | openDir rt dir =>
    simp only [CSt.act, CSt.openDir] at h
    have hb : CAct.openDir rt dir ≠ backOf (.cell c) τ := by cases τ <;> simp [backOf]
    split at h
    · cases h
    · split at h
      · cases h
        rw [tag_give]
        cases τ <;> simp [OutE, backOf, CSt.give, Obj.tag, eq_comm]
      · cases h
        simp [outE_null, hb]
  | closeHyperbee p =>
    simp only [CSt.act, CSt.closeHyperbee] at h
    split at h
    · cases h
    · rename_i a s ha
      obtain ⟨rfl, ha2⟩ := hyperbeeAt_ok.mp ha
      cases h
      rw [tag_free_back (tag_some.mpr ⟨_, ha2, rfl⟩)]
      simp only [outE_unit, false_or]
      exact Iff.rfl
  | get rt hb key =>
    simp only [CSt.act, CSt.get] at h
    have hn : CAct.get rt hb key ≠ backOf (.cell c) τ := by cases τ <;> simp [backOf]
    split at h
    · cases h
    · cases h
    · cases h
    · cases h
      change x.tag c = some τ ↔ _
      simp [outE_code, hn]
  | freeString p =>
    simp only [CSt.act, CSt.freeString] at h
    split at h
    · rename_i a b ha
      obtain ⟨rfl, ha2⟩ := object_ok.mp ha
      cases h
      rw [tag_free_back (tag_some.mpr ⟨_, ha2, rfl⟩)]
      simp only [outE_unit, false_or]
      exact Iff.rfl
    · cases h
    · cases h
  | freeBuffer p n =>
    simp only [CSt.act, CSt.freeBuffer] at h
    split at h
    · rename_i hp
      obtain ⟨rfl, rfl⟩ := hp
      cases h
      have hn : CAct.freeBuffer .empty 0 ≠ backOf (.cell c) τ := by cases τ <;> simp [backOf]
      simp [outE_unit, hn]
    · split at h
      · rename_i a b ha
        obtain ⟨rfl, ha2⟩ := object_ok.mp ha
        split at h
        · rename_i hn
          cases h
          rw [tag_free_back (tag_some.mpr ⟨_, ha2, rfl⟩), hn]
          simp only [outE_unit, false_or]
          exact Iff.rfl
        · cases h
      · cases h
      · cases h
  | turn i =>
    simp only [CSt.act, CSt.turn] at h
    have hn : CAct.turn i ≠ backOf (.cell c) τ := by cases τ <;> simp [backOf]
    split at h
    · cases h; simp [outE_unit, hn]
    · split at h
      · cases h; simp [outE_unit, hn]
      · split at h
        · cases h
        · cases h
          change x.tag c = some τ ↔ _
          simp [outE_unit, hn]
      · split at h
        · cases h
        · rename_i t _ _ _ y k _ _ a s ha
          obtain ⟨ha', ha⟩ := hyperbeeAt_ok.mp ha
          cases ha'
          cases h
          simp only [outE_unit, false_or, ne_eq, hn, not_false_eq_true, and_true]
          rw [tag_some, tag_some]
          simp only [CSt.setTask, List.getElem?_set]
          by_cases hc : t.hb = c
          · subst hc
            rw [if_pos rfl, if_pos (List.getElem?_eq_some_iff.mp ha).1, ha]
            simp [Obj.tag]
          · simp [hc]
      · cases h
        change (x.finish _).2.tag c = some τ ↔ _
        rw [finish_tag _ i]
        simp [hn]
      · cases h
        change x.tag c = some τ ↔ _
        simp [outE_panicked, hn]

/-- What a callback is given is memory, or nothing for a value without bytes. -/
theorem act_out {x x' : CSt} {a : CAct} {r : CRet} (h : x.act a = .ok (r, x')) {p : Ptr} {τ : Tag} (ho : OutE (a, r) p τ) :
    (∃ c, p = .cell c) ∨ (p = .empty ∧ τ = .buf 0) := by
  cases τ with
  | rt =>
    obtain ⟨h1, ok, h2⟩ := ho
    cases h2
    simp only [CSt.act, CSt.initRuntime, Except.ok.injEq] at h
    split at h <;> cases h
    · exact .inl ⟨_, rfl⟩
    · exact absurd rfl h1
  | hb =>
    obtain ⟨h1, rt, dir, h2⟩ := ho
    cases h2
    simp only [CSt.act, CSt.openDir] at h
    split at h
    · cases h
    · split at h <;> cases h
      · exact .inl ⟨_, rfl⟩
      · exact absurd rfl h1
  | str =>
    obtain ⟨i, c, q, v, n, h2⟩ := ho
    cases h2
    simp only [CSt.act, CSt.turn] at h
    split at h
    · cases h
    · split at h
      · cases h
      · split at h <;> cases h
      · split at h <;> cases h
      · have h := congrArg (Except.map Prod.fst) h
        simp only [Except.map, Except.ok.injEq] at h
        unfold CSt.finish at h
        split at h
        · simp only [CRet.called.injEq] at h
          exact .inl ⟨_, h.2.1.symm⟩
        · cases h
      · cases h
  | buf n =>
    obtain ⟨i, c, m, q, h2⟩ := ho
    cases h2
    simp only [CSt.act, CSt.turn] at h
    split at h
    · cases h
    · split at h
      · cases h
      · split at h <;> cases h
      · split at h <;> cases h
      · have h := congrArg (Except.map Prod.fst) h
        simp only [Except.map, Except.ok.injEq] at h
        unfold CSt.finish at h
        split at h
        · simp only [CRet.called.injEq] at h
          obtain ⟨-, -, -, h3, h4⟩ := h
          unfold CSt.giveVec at h3
          split at h3
          · rename_i hv
            refine .inr ⟨h3.symm, ?_⟩
            rw [← h4, hv]; rfl
          · exact .inl ⟨_, h3.symm⟩
        · cases h
      · cases h

/-- What an action does to the tasks. -/
inductive TaskStep (x : CSt) : CAct → CRet → CSt → Prop where
  | same {a r x'} (h : x'.tasks = x.tasks) (hg : ∀ rt hb key, a ≠ .get rt hb key) (hc : ∀ p, a ≠ .closeRuntime p)
      (ht : ∀ i, a = .turn i → r = .unit ∧ ∀ t, x.tasks[i]? = some t → t.state = .over) : TaskStep x a r x'
  | get {rt hb key x'} (h : x'.tasks = x.tasks ++ [⟨rt, hb, key, .spawned⟩]) (hr : x.tag rt = some .rt)
      (hh : x.tag hb = some .hb) : TaskStep x (.get (.cell rt) (.cell hb) (some key)) (.code 0) x'
  | close {c x'} (h : x'.tasks = x.tasks.map fun t => if t.rt = c then { t with state := .over } else t)
      (hr : x.tag c = some .rt)
      (hd : ∀ t ∈ x.tasks, t.rt = c → ∀ β (y : Atom β) k, t.state = .asking (.step y k) → x.tag t.hb = some .hb) :
      TaskStep x (.closeRuntime (.cell c)) .unit x'
  | goes {i r x' t s'} (h : x'.tasks = x.tasks.set i { t with state := s' }) (ht : x.tasks[i]? = some t)
      (hs : t.state ≠ .over) (hu : r = .unit) (hn : ∃ p, s' = .asking p) (hh : x.tag t.hb = some .hb) :
      TaskStep x (.turn i) r x'
  | ends {i r x' t} (h : x'.tasks = x.tasks.set i { t with state := .over }) (ht : x.tasks[i]? = some t)
      (hs : ∃ p, t.state = .asking p) (hr : r = .panicked ∨ ∃ c m q v n, r = .called c m q v n) : TaskStep x (.turn i) r x'

theorem finish_tasks (x : CSt) (r : Reply) : (x.finish r).2.tasks = x.tasks ∧ (x.finish r).2.disk = x.disk ∧
    ((x.finish r).1 = .panicked ∨ ∃ c m q v n, (x.finish r).1 = .called c m q v n) := by
  unfold CSt.finish
  split
  · rename_i q v
    unfold CSt.giveVec
    split <;> exact ⟨rfl, rfl, .inr ⟨_, _, _, _, _, rfl⟩⟩
  · exact ⟨rfl, rfl, .inl rfl⟩

theorem act_tasks {x x' : CSt} {a : CAct} {r : CRet} (h : x.act a = .ok (r, x')) : TaskStep x a r x' ∧ x'.disk = x.disk := by
  cases a with
  | initRuntime ok =>
    simp only [CSt.act, CSt.initRuntime, Except.ok.injEq] at h
    split at h <;> cases h <;> exact ⟨.same rfl (by simp) (by simp) (by simp), rfl⟩
  | closeRuntime p =>
    simp only [CSt.act, CSt.closeRuntime] at h
    split at h
    · cases h
    · rename_i a ha
      obtain ⟨rfl, ha2⟩ := runtimeAt_ok.mp ha
      split at h
      · cases h
      · rename_i hf
        cases h
        refine ⟨.close rfl (tag_some.mpr ⟨_, ha2, rfl⟩) fun t ht hrt β y k hs => ?_, rfl⟩
        have := List.findSome?_eq_none_iff.mp hf t (by simp [ht, hrt])
        unfold CSt.dropFault at this
        rw [hs] at this
        simp only at this
        split at this
        · rename_i z hz
          obtain ⟨c, s⟩ := z
          obtain ⟨h1, h2⟩ := hyperbeeAt_ok.mp hz
          cases h1
          exact tag_some.mpr ⟨_, h2, rfl⟩
        · cases this
  | openDir rt dir =>
    simp only [CSt.act, CSt.openDir] at h
    split at h
    · cases h
    · split at h <;> cases h <;> exact ⟨.same rfl (by simp) (by simp) (by simp), rfl⟩
  | closeHyperbee p =>
    simp only [CSt.act, CSt.closeHyperbee] at h
    split at h
    · cases h
    · cases h; exact ⟨.same rfl (by simp) (by simp) (by simp), rfl⟩
  | get rt hb key =>
    simp only [CSt.act, CSt.get] at h
    split at h
    · cases h
    · cases h
    · cases h
    · rename_i h1 h2
      cases h
      obtain ⟨rfl, h1'⟩ := runtimeAt_ok.mp h1
      obtain ⟨rfl, h2'⟩ := hyperbeeAt_ok.mp h2
      exact ⟨.get rfl (tag_some.mpr ⟨_, h1', rfl⟩) (tag_some.mpr ⟨_, h2', rfl⟩), rfl⟩
  | freeString p =>
    simp only [CSt.act, CSt.freeString] at h
    split at h <;> cases h
    exact ⟨.same rfl (by simp) (by simp) (by simp), rfl⟩
  | freeBuffer p n =>
    simp only [CSt.act, CSt.freeBuffer] at h
    split at h
    · cases h; exact ⟨.same rfl (by simp) (by simp) (by simp), rfl⟩
    · split at h
      · split at h
        · cases h; exact ⟨.same rfl (by simp) (by simp) (by simp), rfl⟩
        · cases h
      · cases h
      · cases h
  | turn i =>
    simp only [CSt.act, CSt.turn] at h
    split at h
    · rename_i hn
      cases h
      exact ⟨.same rfl (by simp) (by simp) (by rintro _ ⟨⟩; exact ⟨rfl, fun t ht => by rw [hn] at ht; cases ht⟩), rfl⟩
    · rename_i t ht
      split at h
      · rename_i hs
        cases h
        exact ⟨.same rfl (by simp) (by simp) (by rintro _ ⟨⟩; exact ⟨rfl, fun t' ht' => by rw [ht] at ht'; cases ht'; exact hs⟩), rfl⟩
      · rename_i hs
        split at h
        · cases h
        · rename_i z hz
          obtain ⟨c, s⟩ := z
          obtain ⟨h1, h2⟩ := hyperbeeAt_ok.mp hz
          cases h1
          cases h
          exact ⟨.goes rfl ht (by rw [hs]; simp) rfl ⟨_, rfl⟩ (tag_some.mpr ⟨_, h2, rfl⟩), rfl⟩
      · rename_i hs
        split at h
        · cases h
        · rename_i hz
          obtain ⟨h1, h2⟩ := hyperbeeAt_ok.mp hz
          cases h1
          cases h
          exact ⟨.goes rfl ht (by rw [hs]; simp) rfl ⟨_, rfl⟩ (tag_some.mpr ⟨_, h2, rfl⟩), rfl⟩
      · rename_i rep hs
        cases h
        obtain ⟨f1, f2, f3⟩ := finish_tasks x rep
        exact ⟨.ends (by rw [CSt.setTask, f1]) ht ⟨_, hs⟩ f3, f2⟩
      · rename_i hs
        cases h
        exact ⟨.ends rfl ht ⟨_, hs⟩ (.inl rfl), rfl⟩

theorem finish_fresh {x : CSt} {rep : Reply} {i c : Nat} {τ : Tag} (h : OutE (.turn i, (x.finish rep).1) (.cell c) τ) :
    x.heap.length ≤ c := by
  unfold CSt.finish at h
  split at h
  · unfold CSt.giveVec at h
    split at h
    · cases τ <;> simp [OutE, CSt.give] at h
      omega
    · cases τ <;> simp [OutE, CSt.give] at h <;> omega
  · exact absurd h outE_panicked

theorem finish_len (x : CSt) (rep : Reply) : x.heap.length ≤ (x.finish rep).2.heap.length := by
  unfold CSt.finish
  split
  · unfold CSt.giveVec
    split <;> simp [CSt.give]
  · exact Nat.le_refl _

/-- Cells are numbered through, and what is handed out is new. -/
theorem act_fresh {x x' : CSt} {a : CAct} {r : CRet} (h : x.act a = .ok (r, x')) : x.heap.length ≤ x'.heap.length ∧
    ∀ c τ, OutE (a, r) (.cell c) τ → x.heap.length ≤ c := by
  cases a with
  | initRuntime ok =>
    simp only [CSt.act, CSt.initRuntime, Except.ok.injEq] at h
    split at h <;> cases h
    · refine ⟨by simp [CSt.give], fun c τ ho => ?_⟩
      cases τ <;> simp [OutE, CSt.give] at ho
      omega
    · exact ⟨Nat.le_refl _, fun c τ ho => absurd ho outE_null⟩
  | closeRuntime p =>
    simp only [CSt.act, CSt.closeRuntime] at h
    split at h
    · cases h
    · split at h <;> cases h
      exact ⟨by simp [CSt.free], fun c τ ho => absurd ho outE_unit⟩
  | openDir rt dir =>
    simp only [CSt.act, CSt.openDir] at h
    split at h
    · cases h
    · split at h <;> cases h
      · refine ⟨by simp [CSt.give], fun c τ ho => ?_⟩
        cases τ <;> simp [OutE, CSt.give] at ho
        omega
      · exact ⟨Nat.le_refl _, fun c τ ho => absurd ho outE_null⟩
  | closeHyperbee p =>
    simp only [CSt.act, CSt.closeHyperbee] at h
    split at h <;> cases h
    exact ⟨by simp [CSt.free], fun c τ ho => absurd ho outE_unit⟩
  | get rt hb key =>
    simp only [CSt.act, CSt.get] at h
    split at h <;> cases h
    exact ⟨Nat.le_refl _, fun c τ ho => absurd ho outE_code⟩
  | freeString p =>
    simp only [CSt.act, CSt.freeString] at h
    split at h <;> cases h
    exact ⟨by simp [CSt.free], fun c τ ho => absurd ho outE_unit⟩
  | freeBuffer p n =>
    simp only [CSt.act, CSt.freeBuffer] at h
    split at h
    · cases h; exact ⟨Nat.le_refl _, fun c τ ho => absurd ho outE_unit⟩
    · split at h
      · split at h <;> cases h
        exact ⟨by simp [CSt.free], fun c τ ho => absurd ho outE_unit⟩
      · cases h
      · cases h
  | turn i =>
    simp only [CSt.act, CSt.turn] at h
    split at h
    · cases h; exact ⟨Nat.le_refl _, fun c τ ho => absurd ho outE_unit⟩
    · split at h
      · cases h; exact ⟨Nat.le_refl _, fun c τ ho => absurd ho outE_unit⟩
      · split at h <;> cases h
        exact ⟨Nat.le_refl _, fun c τ ho => absurd ho outE_unit⟩
      · split at h <;> cases h
        exact ⟨by simp [CSt.setTask], fun c τ ho => absurd ho outE_unit⟩
      · cases h
        exact ⟨finish_len _ _, fun c τ ho => finish_fresh ho⟩
      · cases h; exact ⟨Nat.le_refl _, fun c τ ho => absurd ho outE_panicked⟩

/-- The trace tells what is in memory and how far the tasks are. -/
structure CInv (disk : Bytes → Option (List Bytes)) (tr : CTrace) (x : CSt) : Prop where
  disk : x.disk = disk
  tags : ∀ c τ, Has tr (.cell c) τ ↔ x.tag c = some τ
  ptrs : ∀ p τ, Has tr p τ → (∃ c, p = .cell c) ∨ (p = .empty ∧ τ = .buf 0)
  gets : cGets tr = x.tasks.map fun t => (.cell t.rt, .cell t.hb, some t.key)
  room : ∀ t ∈ x.tasks, t.rt < x.heap.length ∧ t.hb < x.heap.length
  fin : ∀ i, Finished tr i → ∃ t, x.tasks[i]? = some t ∧ t.state = .over
  over : ∀ i t, x.tasks[i]? = some t → t.state = .over → Finished tr i ∨ x.tag t.rt ≠ some .rt
  lost : ∀ t ∈ x.tasks, x.tag t.rt ≠ some .rt → t.state = .over
  new : ∀ i t, x.tasks[i]? = some t → (∀ r, (CAct.turn i, r) ∉ tr) → t.state = .spawned ∨ t.state = .over

theorem cinv_start (disk : Bytes → Option (List Bytes)) : CInv disk [] (CSt.start disk) where
  disk := rfl
  tags := fun c τ => ⟨fun h => absurd h has_nil, fun h => by simp [CSt.tag, CSt.start] at h⟩
  ptrs := fun p τ h => absurd h has_nil
  gets := rfl
  room := fun t h => by cases h
  fin := fun i h => by obtain ⟨r, h, _⟩ := h; cases h
  over := fun i t h => by cases h
  lost := fun t h => by cases h
  new := fun i t h => by cases h

theorem cGets_snoc (tr : CTrace) (a : CAct) (r : CRet) (h : ∀ rt hb key, a ≠ .get rt hb key) :
    cGets (tr ++ [(a, r)]) = cGets tr := by
  unfold cGets
  rw [List.filterMap_append]
  cases a <;> simp_all

theorem finished_snoc {tr : CTrace} {a : CAct} {r : CRet} {i : Nat} : Finished (tr ++ [(a, r)]) i ↔
    Finished tr i ∨ (a = .turn i ∧ (r = .panicked ∨ ∃ c m q v n, r = .called c m q v n)) := by
  unfold Finished
  constructor
  · rintro ⟨r', h1, h2⟩
    rcases List.mem_append.mp h1 with h | h
    · exact .inl ⟨r', h, h2⟩
    · simp at h
      exact .inr ⟨h.1.symm, h.2 ▸ h2⟩
  · rintro (⟨r', h1, h2⟩ | ⟨rfl, h2⟩)
    · exact ⟨r', by simp [h1], h2⟩
    · exact ⟨r, by simp, h2⟩

theorem snoc_get {l : List α} {i : Nat} {y z : α} (h : (l ++ [y])[i]? = some z) : l[i]? = some z ∨ z = y := by
  rcases List.mem_append.mp (List.mem_of_getElem? h) with _ | h'
  · by_cases hl : i < l.length
    · rw [List.getElem?_append_left hl] at h; exact .inl h
    · rw [List.getElem?_append_right (by omega)] at h
      exact .inr (by simpa using List.mem_of_getElem? h)
  · exact .inr (by simpa using h')

theorem set_get {l : List α} {i j : Nat} {y z : α} (h : (l.set i y)[j]? = some z) : (j = i ∧ z = y) ∨ (j ≠ i ∧ l[j]? = some z) := by
  rw [List.getElem?_set] at h
  split at h
  · rename_i hij
    split at h
    · cases h; exact .inl ⟨hij.symm, rfl⟩
    · cases h
  · rename_i hij
    exact .inr ⟨fun h' => hij h'.symm, h⟩

theorem CInv.turn {disk : Bytes → Option (List Bytes)} {tr : CTrace} {x x' : CSt} (hi : CInv disk tr x) {i : Nat} {r : CRet}
    (hd : x'.disk = x.disk) (htags : ∀ c τ, Has (tr ++ [(.turn i, r)]) (.cell c) τ ↔ x'.tag c = some τ)
    (hptrs : ∀ p τ, Has (tr ++ [(.turn i, r)]) p τ → (∃ c, p = .cell c) ∨ (p = .empty ∧ τ = .buf 0))
    (hlen : x.heap.length ≤ x'.heap.length) (hr' : ∀ c, c < x.heap.length → (x'.tag c = some .rt ↔ x.tag c = some .rt))
    {t : GetTask} {s' : GetState} (e : x'.tasks = x.tasks.set i { t with state := s' }) (ht : x.tasks[i]? = some t)
    (hs : s' = .over → r = .panicked ∨ ∃ c m q v n, r = .called c m q v n)
    (hf' : (r = .panicked ∨ ∃ c m q v n, r = .called c m q v n) → s' = .over) (hno : t.state ≠ .over) :
    CInv disk (tr ++ [(.turn i, r)]) x' := by
  have hlt := (List.getElem?_eq_some_iff.mp ht).1
  have hrt : x.tag t.rt = some .rt := Classical.byContradiction fun h => hno (hi.lost t (List.mem_of_getElem? ht) h)
  have hroom := hi.room t (List.mem_of_getElem? ht)
  refine ⟨hd.trans hi.disk, htags, hptrs, ?_, ?_, ?_, ?_, ?_, ?_⟩
  · rw [cGets_snoc _ _ _ (by simp), hi.gets, e]
    apply List.ext_getElem?
    intro j
    simp only [List.getElem?_map, List.getElem?_set]
    split
    · subst j; rw [ht]; simp [hlt]
    · rfl
  · intro t' ht'
    obtain ⟨j, hj, hi'⟩ := List.getElem_of_mem ht'
    have h' : x'.tasks[j]? = some t' := by rw [List.getElem?_eq_getElem hj, hi']
    rw [e] at h'
    rcases set_get h' with ⟨_, rfl⟩ | ⟨_, h'⟩
    · exact ⟨Nat.lt_of_lt_of_le hroom.1 hlen, Nat.lt_of_lt_of_le hroom.2 hlen⟩
    · have := hi.room t' (List.mem_of_getElem? h')
      exact ⟨Nat.lt_of_lt_of_le this.1 hlen, Nat.lt_of_lt_of_le this.2 hlen⟩
  · intro j hf
    rw [e]
    rcases finished_snoc.mp hf with hf | ⟨hj, hf2⟩
    · obtain ⟨t', g1, g2⟩ := hi.fin j hf
      refine ⟨t', ?_, g2⟩
      rw [List.getElem?_set, if_neg]
      · exact g1
      · rintro rfl
        rw [ht] at g1; cases g1; exact hno g2
    · cases hj
      exact ⟨_, by rw [List.getElem?_set, if_pos rfl, if_pos hlt], hf' hf2⟩
  · intro j t' h1 h2
    rw [finished_snoc]
    rw [e] at h1
    rcases set_get h1 with ⟨rfl, rfl⟩ | ⟨_, h1⟩
    · exact .inl (.inr ⟨rfl, hs h2⟩)
    · rw [ne_eq, hr' _ (hi.room t' (List.mem_of_getElem? h1)).1]
      rcases hi.over j t' h1 h2 with h3 | h3
      · exact .inl (.inl h3)
      · exact .inr h3
  · intro t' ht' g
    obtain ⟨j, hj, hi'⟩ := List.getElem_of_mem ht'
    have h' : x'.tasks[j]? = some t' := by rw [List.getElem?_eq_getElem hj, hi']
    rw [e] at h'
    rcases set_get h' with ⟨_, rfl⟩ | ⟨_, h'⟩
    · exact absurd ((hr' _ hroom.1).mpr hrt) g
    · have hm := List.mem_of_getElem? h'
      rw [ne_eq, hr' _ (hi.room t' hm).1] at g
      exact hi.lost t' hm g
  · intro j t' h1 h2
    rw [e] at h1
    rcases set_get h1 with ⟨rfl, rfl⟩ | ⟨_, h1⟩
    · exact absurd (by simp) (h2 r)
    · exact hi.new j t' h1 fun r hr => h2 r (by simp [hr])

theorem CInv.act {disk : Bytes → Option (List Bytes)} {tr : CTrace} {x x' : CSt} (hi : CInv disk tr x) {a : CAct} {r : CRet}
    (h : x.act a = .ok (r, x')) : CInv disk (tr ++ [(a, r)]) x' := by
  obtain ⟨hT, hd⟩ := act_tasks h
  obtain ⟨hlen, hfresh⟩ := act_fresh h
  have htag := act_tag h
  -- a runtime that a task has is there afterwards unless it is closed now
  have hrt : ∀ c, c < x.heap.length → (x'.tag c = some .rt ↔ x.tag c = some .rt ∧ a ≠ .closeRuntime (.cell c)) := by
    intro c hc
    rw [htag]
    constructor
    · rintro (ho | ho)
      · have := hfresh _ _ ho; omega
      · exact ho
    · exact .inr
  have htags : ∀ c τ, Has (tr ++ [(a, r)]) (.cell c) τ ↔ x'.tag c = some τ := by
    intro c τ
    rw [has_snoc, htag, hi.tags]
  have hptrs : ∀ p τ, Has (tr ++ [(a, r)]) p τ → (∃ c, p = .cell c) ∨ (p = .empty ∧ τ = .buf 0) := by
    intro p τ hp
    rw [has_snoc] at hp
    rcases hp with hp | hp
    · exact act_out h hp
    · exact hi.ptrs p τ hp.1
  cases hT with
  | same e hg hc ht =>
    have hr' : ∀ t ∈ x.tasks, x'.tag t.rt = some .rt ↔ x.tag t.rt = some .rt := fun t h' => by
      rw [hrt _ (hi.room t h').1]; simp [hc]
    refine ⟨hd.trans hi.disk, htags, hptrs, by rw [cGets_snoc _ _ _ hg, hi.gets, e], ?_, ?_, ?_, ?_, ?_⟩
    · rw [e]; exact fun t h' => ⟨Nat.lt_of_lt_of_le (hi.room t h').1 hlen, Nat.lt_of_lt_of_le (hi.room t h').2 hlen⟩
    · intro i hf
      rw [e]
      rcases finished_snoc.mp hf with hf | ⟨rfl, hf2⟩
      · exact hi.fin i hf
      · rw [(ht i rfl).1] at hf2; simp at hf2
    · intro i t h1 h2
      rw [e] at h1
      rw [ne_eq, hr' t (List.mem_of_getElem? h1), finished_snoc]
      rcases hi.over i t h1 h2 with h3 | h3
      · exact .inl (.inl h3)
      · exact .inr h3
    · intro t h1 h2
      rw [e] at h1
      rw [ne_eq, hr' t h1] at h2
      exact hi.lost t h1 h2
    · intro i t h1 h2
      rw [e] at h1
      exact hi.new i t h1 fun r hr => h2 r (by simp [hr])
  | get e h1 h2 =>
    rename_i rt hb key
    have hr' : ∀ c, c < x.heap.length → (x'.tag c = some .rt ↔ x.tag c = some .rt) := fun c h' => by
      rw [hrt _ h']; simp
    refine ⟨hd.trans hi.disk, htags, hptrs, by rw [e, List.map_append, ← hi.gets]; simp [cGets], ?_, ?_, ?_, ?_, ?_⟩
    · rw [e]
      intro t ht
      rcases List.mem_append.mp ht with ht | ht
      · exact ⟨Nat.lt_of_lt_of_le (hi.room t ht).1 hlen, Nat.lt_of_lt_of_le (hi.room t ht).2 hlen⟩
      · rw [List.mem_singleton.mp ht]
        exact ⟨Nat.lt_of_lt_of_le (tag_lt h1) hlen, Nat.lt_of_lt_of_le (tag_lt h2) hlen⟩
    · intro i hf
      rcases finished_snoc.mp hf with hf | ⟨hf, _⟩
      · obtain ⟨t, g1, g2⟩ := hi.fin i hf
        exact ⟨t, by rw [e, List.getElem?_append_left (List.getElem?_eq_some_iff.mp g1).1]; exact g1, g2⟩
      · cases hf
    · intro i t g1 g2
      rw [e] at g1
      rcases snoc_get g1 with g1 | g1
      · rw [finished_snoc, ne_eq, hr' _ (hi.room t (List.mem_of_getElem? g1)).1]
        rcases hi.over i t g1 g2 with h3 | h3
        · exact .inl (.inl h3)
        · exact .inr h3
      · subst g1; cases g2
    · intro t g1 g2
      rw [e] at g1
      rcases List.mem_append.mp g1 with g1 | g1
      · rw [ne_eq, hr' _ (hi.room t g1).1] at g2
        exact hi.lost t g1 g2
      · rw [List.mem_singleton.mp g1] at g2
        exact absurd ((hr' _ (tag_lt h1)).mpr h1) g2
    · intro i t g1 g2
      rw [e] at g1
      rcases snoc_get g1 with g1 | g1
      · exact hi.new i t g1 fun r hr => g2 r (by simp [hr])
      · subst g1; exact .inl rfl
  | close e h1 h2 =>
    rename_i c
    have hmem : ∀ (i : Nat) t', x'.tasks[i]? = some t' → ∃ t : GetTask, x.tasks[i]? = some t ∧ t' = if t.rt = c then { t with state := .over } else t := by
      intro i t' h'
      rw [e, List.getElem?_map] at h'
      obtain ⟨t, g1, g2⟩ := Option.map_eq_some_iff.mp h'
      exact ⟨t, g1, g2.symm⟩
    refine ⟨hd.trans hi.disk, htags, hptrs, ?_, ?_, ?_, ?_, ?_, ?_⟩
    · rw [cGets_snoc _ _ _ (by simp), hi.gets, e, List.map_map]
      apply List.map_congr_left
      intro t _
      simp only [Function.comp]
      split <;> rfl
    · intro t' ht'
      obtain ⟨i, hlt, hi'⟩ := List.getElem_of_mem ht'
      obtain ⟨t, g1, rfl⟩ := hmem i t' (by rw [List.getElem?_eq_getElem hlt, hi'])
      have := hi.room t (List.mem_of_getElem? g1)
      split <;> exact ⟨Nat.lt_of_lt_of_le this.1 hlen, Nat.lt_of_lt_of_le this.2 hlen⟩
    · intro i hf
      rcases finished_snoc.mp hf with hf | ⟨hf, _⟩
      · obtain ⟨t, g1, g2⟩ := hi.fin i hf
        refine ⟨if t.rt = c then { t with state := .over } else t, by rw [e, List.getElem?_map, g1]; rfl, ?_⟩
        split
        · rfl
        · exact g2
      · cases hf
    · intro i t' g1 g2
      obtain ⟨t, g3, rfl⟩ := hmem i t' g1
      rw [finished_snoc]
      split at g2
      · rename_i hc
        rw [if_pos hc]
        refine .inr ?_
        show x'.tag t.rt ≠ _
        rw [ne_eq, hrt _ (hi.room t (List.mem_of_getElem? g3)).1, hc]
        simp
      · rename_i hc
        rw [if_neg hc]
        rw [ne_eq, hrt _ (hi.room t (List.mem_of_getElem? g3)).1]
        rcases hi.over i t g3 g2 with h3 | h3
        · exact .inl (.inl h3)
        · exact .inr fun h' => h3 h'.1
    · intro t' ht' g2
      obtain ⟨i, hlt, hi'⟩ := List.getElem_of_mem ht'
      obtain ⟨t, g1, rfl⟩ := hmem i t' (by rw [List.getElem?_eq_getElem hlt, hi'])
      split
      · rfl
      · rename_i hc
        rw [if_neg hc] at g2
        rw [ne_eq, hrt _ (hi.room t (List.mem_of_getElem? g1)).1] at g2
        refine hi.lost t (List.mem_of_getElem? g1) fun h' => g2 ⟨h', ?_⟩
        simp; omega
    · intro i t' g1 g2
      obtain ⟨t, g3, rfl⟩ := hmem i t' g1
      split
      · exact .inr rfl
      · exact hi.new i t g3 fun r hr => g2 r (by simp [hr])
  | goes e h1 h2 h3 h4 h5 =>
    rename_i i t s'
    exact hi.turn hd htags hptrs hlen (fun c hc => by rw [hrt c hc]; simp) e h1 (fun hs => by
      obtain ⟨p, hp⟩ := h4; rw [hp] at hs; cases hs) (fun hf => by rw [h3] at hf; simp at hf) h2
  | ends e h1 h2 h3 =>
    exact hi.turn hd htags hptrs hlen (fun c hc => by rw [hrt c hc]; simp) e h1 (fun _ => h3) (fun _ => rfl) (by
      obtain ⟨p, hp⟩ := h2; rw [hp]; simp)

/-! ## Runs -/

theorem run_cinv {disk : Bytes → Option (List Bytes)} : ∀ (acts : List CAct) {tr : CTrace} {x y : CSt}, CInv disk tr x →
    (x.run acts).2 = .ok y → CInv disk (tr ++ acts.zip (x.run acts).1) y ∧ (x.run acts).1.length = acts.length
  | [], tr, x, y, hi, h => by
    cases h; simpa [CSt.run] using hi
  | a :: as, tr, x, y, hi, h => by
    unfold CSt.run at h ⊢
    cases ha : x.act a with
    | error e => rw [ha] at h; cases h
    | ok z =>
      obtain ⟨r, x'⟩ := z
      rw [ha] at h
      have := run_cinv as (hi.act ha) h
      simpa using this

theorem run_cTrace {disk : Bytes → Option (List Bytes)} {acts : List CAct} {y : CSt}
    (h : ((CSt.start disk).run acts).2 = .ok y) : CInv disk (cTrace disk acts) y := by
  simpa [cTrace] using (run_cinv acts (cinv_start disk) h).1

theorem run_append : ∀ (as bs : List CAct) {x y : CSt}, (x.run as).2 = .ok y →
    x.run (as ++ bs) = ((x.run as).1 ++ (y.run bs).1, (y.run bs).2)
  | [], bs, x, y, h => by cases h; simp [CSt.run]
  | a :: as, bs, x, y, h => by
    rw [List.cons_append]
    rw [CSt.run] at h ⊢
    rw [CSt.run]
    cases ha : x.act a with
    | error e => rw [ha] at h; cases h
    | ok z =>
      rw [ha] at h
      simp only
      rw [run_append as bs h]
      rfl

theorem run_one (x : CSt) (a : CAct) : x.run [a] = match x.act a with
    | .error e => ([], .error e)
    | .ok (r, x') => ([r], .ok x') := by
  unfold CSt.run
  cases x.act a <;> rfl

theorem run_bad : ∀ (as bs : List CAct) {x : CSt} {e : Ub}, (x.run as).2 = .error e → (x.run (as ++ bs)).2 = .error e
  | [], bs, x, e, h => by cases h
  | a :: as, bs, x, e, h => by
    rw [List.cons_append]
    unfold CSt.run at h ⊢
    cases ha : x.act a with
    | error e' => rw [ha] at h; exact h
    | ok z =>
      rw [ha] at h
      exact run_bad as bs h

theorem cTrace_snoc {disk : Bytes → Option (List Bytes)} {acts : List CAct} {y y' : CSt} {a : CAct} {r : CRet}
    (h : ((CSt.start disk).run acts).2 = .ok y) (ha : y.act a = .ok (r, y')) :
    cTrace disk (acts ++ [a]) = cTrace disk acts ++ [(a, r)] := by
  have hl := (run_cinv acts (cinv_start disk) h).2
  unfold cTrace
  rw [run_append _ _ h, run_one, ha, List.zip_append hl.symm]
  rfl

/-- The pointers of an action that is defined are proper. -/
theorem CInv.proper {disk : Bytes → Option (List Bytes)} {tr : CTrace} {x x' : CSt} (hi : CInv disk tr x) {a : CAct} {r : CRet}
    (h : x.act a = .ok (r, x')) : Proper tr a := by
  cases a with
  | initRuntime ok => trivial
  | turn i => trivial
  | closeRuntime p =>
    cases (act_tasks h).1 with
    | same _ _ hc => exact absurd rfl (hc p)
    | close _ h1 => exact has_rt.mpr ((hi.tags _ _).mpr h1)
  | openDir rt dir =>
    simp only [CSt.act, CSt.openDir] at h
    split at h
    · cases h
    · rename_i ha
      obtain ⟨rfl, ha2⟩ := runtimeAt_ok.mp ha
      exact has_rt.mpr ((hi.tags _ _).mpr (tag_some.mpr ⟨_, ha2, rfl⟩))
  | closeHyperbee p =>
    simp only [CSt.act, CSt.closeHyperbee] at h
    split at h
    · cases h
    · rename_i ha
      obtain ⟨rfl, ha2⟩ := hyperbeeAt_ok.mp ha
      exact has_hb.mpr ((hi.tags _ _).mpr (tag_some.mpr ⟨_, ha2, rfl⟩))
  | get rt hb key =>
    cases (act_tasks h).1 with
    | same _ hg => exact absurd rfl (hg _ _ _)
    | get _ h1 h2 => exact ⟨has_rt.mpr ((hi.tags _ _).mpr h1), has_hb.mpr ((hi.tags _ _).mpr h2), by simp⟩
  | freeString p =>
    simp only [CSt.act, CSt.freeString] at h
    split at h
    · rename_i ha
      obtain ⟨rfl, ha2⟩ := object_ok.mp ha
      exact has_str.mpr ((hi.tags _ _).mpr (tag_some.mpr ⟨_, ha2, rfl⟩))
    · cases h
    · cases h
  | freeBuffer p n =>
    simp only [CSt.act, CSt.freeBuffer] at h
    split at h
    · rename_i hp; exact .inr hp
    · split at h
      · rename_i ha
        obtain ⟨rfl, ha2⟩ := object_ok.mp ha
        split at h
        · rename_i hn
          exact .inl (has_buf.mpr ((hi.tags _ _).mpr (tag_some.mpr ⟨_, ha2, by rw [hn]; rfl⟩)))
        · cases h
      · cases h
      · cases h

/-- Every task that may take a step has its database. -/
def CSt.Safe (x : CSt) : Prop := ∀ t ∈ x.tasks, t.state ≠ .over → x.tag t.hb = some .hb

theorem CInv.cell {disk : Bytes → Option (List Bytes)} {tr : CTrace} {x : CSt} (hi : CInv disk tr x) {p : Ptr} {τ : Tag}
    (h : Has tr p τ) (hτ : ∀ n, τ ≠ .buf n) : ∃ c o, p = .cell c ∧ x.heap[c]? = some (some o) ∧ o.tag = τ := by
  rcases hi.ptrs p τ h with ⟨c, rfl⟩ | ⟨_, h'⟩
  · obtain ⟨o, h1, h2⟩ := tag_some.mp ((hi.tags _ _).mp h)
    exact ⟨c, o, rfl, h1, h2⟩
  · exact absurd h' (hτ 0)

theorem CInv.runtime {disk : Bytes → Option (List Bytes)} {tr : CTrace} {x : CSt} (hi : CInv disk tr x) {p : Ptr}
    (h : HasRuntime tr p) : ∃ c, x.runtimeAt p = .ok c := by
  obtain ⟨c, o, rfl, h1, h2⟩ := hi.cell (has_rt.mp h) (by simp)
  cases o <;> cases h2
  exact ⟨c, runtimeAt_ok.mpr ⟨rfl, h1⟩⟩

theorem CInv.hyperbee {disk : Bytes → Option (List Bytes)} {tr : CTrace} {x : CSt} (hi : CInv disk tr x) {p : Ptr}
    (h : HasHyperbee tr p) : ∃ c s, x.hyperbeeAt p = .ok (c, s) := by
  obtain ⟨c, o, rfl, h1, h2⟩ := hi.cell (has_hb.mp h) (by simp)
  cases o <;> cases h2
  exact ⟨c, _, hyperbeeAt_ok.mpr ⟨rfl, h1⟩⟩

theorem hyperbeeAt_tag {x : CSt} {c : Nat} (h : x.tag c = some .hb) : ∃ s, x.hyperbeeAt (.cell c) = .ok (c, s) := by
  obtain ⟨o, h1, h2⟩ := tag_some.mp h
  cases o <;> cases h2
  exact ⟨_, hyperbeeAt_ok.mpr ⟨rfl, h1⟩⟩

/-- An allowed action is defined. -/
theorem CInv.defined {disk : Bytes → Option (List Bytes)} {tr : CTrace} {x : CSt} (hi : CInv disk tr x) (hs : x.Safe) {a : CAct}
    (h : Proper tr a) : ∃ r x', x.act a = .ok (r, x') := by
  cases a with
  | initRuntime ok => exact ⟨_, _, rfl⟩
  | closeRuntime p =>
    obtain ⟨c, hc⟩ := hi.runtime h
    have hn : (x.tasks.filter fun t => t.rt = c).findSome? x.dropFault = none := by
      rw [List.findSome?_eq_none_iff]
      intro t ht
      unfold CSt.dropFault
      split
      · rename_i hst
        obtain ⟨s, h1⟩ := hyperbeeAt_tag (hs t (List.mem_filter.mp ht).1 (by rw [hst]; simp))
        rw [h1]
      · rfl
    simp only [CSt.act, CSt.closeRuntime, hc, hn]
    exact ⟨_, _, rfl⟩
  | openDir rt dir =>
    obtain ⟨c, hc⟩ := hi.runtime h
    simp only [CSt.act, CSt.openDir, hc]
    split <;> exact ⟨_, _, rfl⟩
  | closeHyperbee p =>
    obtain ⟨c, s, hc⟩ := hi.hyperbee h
    simp only [CSt.act, CSt.closeHyperbee, hc]
    exact ⟨_, _, rfl⟩
  | get rt hb key =>
    obtain ⟨h1, h2, h3⟩ := h
    obtain ⟨c, hc⟩ := hi.runtime h1
    obtain ⟨d, s, hd⟩ := hi.hyperbee h2
    cases key with
    | none => exact absurd rfl h3
    | some key =>
      simp only [CSt.act, CSt.get, hc, hd]
      exact ⟨_, _, rfl⟩
  | freeString p =>
    obtain ⟨c, o, rfl, h1, h2⟩ := hi.cell (has_str.mp h) (by simp)
    cases o <;> cases h2
    simp only [CSt.act, CSt.freeString, object_ok.mpr ⟨rfl, h1⟩]
    exact ⟨_, _, rfl⟩
  | freeBuffer p n =>
    by_cases hp : p = .empty ∧ n = 0
    · simp only [CSt.act, CSt.freeBuffer, if_pos hp]
      exact ⟨_, _, rfl⟩
    · rcases h with h | h
      · rcases hi.ptrs _ _ (has_buf.mp h) with ⟨c, rfl⟩ | ⟨h1, h2⟩
        · obtain ⟨o, h1, h2⟩ := tag_some.mp ((hi.tags _ _).mp (has_buf.mp h))
          cases o <;> cases h2
          simp only [CSt.act, CSt.freeBuffer, if_neg hp, object_ok.mpr ⟨rfl, h1⟩, if_pos]
          exact ⟨_, _, rfl⟩
        · cases h2; exact absurd ⟨h1, rfl⟩ hp
      · exact absurd h hp
  | turn i =>
    simp only [CSt.act, CSt.turn]
    split
    · exact ⟨_, _, rfl⟩
    · rename_i t ht
      have hm := List.mem_of_getElem? ht
      split
      · exact ⟨_, _, rfl⟩
      · rename_i hst
        obtain ⟨s, h1⟩ := hyperbeeAt_tag (hs t hm (by rw [hst]; simp))
        rw [h1]
        exact ⟨_, _, rfl⟩
      · rename_i hst
        obtain ⟨s, h1⟩ := hyperbeeAt_tag (hs t hm (by rw [hst]; simp))
        rw [h1]
        exact ⟨_, _, rfl⟩
      · exact ⟨_, _, rfl⟩
      · exact ⟨_, _, rfl⟩

/-- The task in each place, before and after. -/
theorem TaskStep.before {x x' : CSt} {a : CAct} {r : CRet} (h : TaskStep x a r x') {i : Nat} {t' : GetTask}
    (ht : x'.tasks[i]? = some t') : (∃ t, x.tasks[i]? = some t ∧ t'.rt = t.rt ∧ t'.hb = t.hb ∧ t'.key = t.key ∧
      (t'.state ≠ .over → t.state ≠ .over)) ∨
      (∃ rt, a = .get rt (.cell t'.hb) (some t'.key) ∧ x.tag t'.hb = some .hb) := by
  cases h with
  | same e => rw [e] at ht; exact .inl ⟨t', ht, rfl, rfl, rfl, id⟩
  | get e h1 h2 =>
    rw [e] at ht
    rcases snoc_get ht with ht | rfl
    · exact .inl ⟨t', ht, rfl, rfl, rfl, id⟩
    · exact .inr ⟨_, rfl, h2⟩
  | close e =>
    rw [e, List.getElem?_map] at ht
    obtain ⟨t, g1, g2⟩ := Option.map_eq_some_iff.mp ht
    refine .inl ⟨t, g1, ?_⟩
    split at g2 <;> subst g2
    · exact ⟨rfl, rfl, rfl, fun h => absurd rfl h⟩
    · exact ⟨rfl, rfl, rfl, id⟩
  | goes e h1 h2 =>
    rw [e] at ht
    rcases set_get ht with ⟨rfl, rfl⟩ | ⟨_, ht⟩
    · exact .inl ⟨_, h1, rfl, rfl, rfl, fun _ => h2⟩
    · exact .inl ⟨t', ht, rfl, rfl, rfl, id⟩
  | ends e h1 h2 =>
    rw [e] at ht
    rcases set_get ht with ⟨rfl, rfl⟩ | ⟨_, ht⟩
    · exact .inl ⟨_, h1, rfl, rfl, rfl, fun h => absurd rfl h⟩
    · exact .inl ⟨t', ht, rfl, rfl, rfl, id⟩

/-- Allowed actions keep the databases of the tasks. -/
theorem CInv.safe {disk : Bytes → Option (List Bytes)} {tr : CTrace} {x x' : CSt} (hi : CInv disk tr x) (hs : x.Safe) {a : CAct}
    {r : CRet} (ha : Allowed tr a) (h : x.act a = .ok (r, x')) : x'.Safe := by
  intro t' ht' hst
  obtain ⟨i, hlt, hi'⟩ := List.getElem_of_mem ht'
  rcases (act_tasks h).1.before (show x'.tasks[i]? = some t' by rw [List.getElem?_eq_getElem hlt, hi']) with
    ⟨t, h1, h2, h3, h4, h5⟩ | ⟨rt, rfl, h2⟩
  · have h6 := hs t (List.mem_of_getElem? h1) (h5 hst)
    rw [act_tag h, h3]
    refine .inr ⟨h6, fun hc => ?_⟩
    rcases ha.2 _ hc i (.cell t.rt) (some t.key) (by rw [hi.gets, List.getElem?_map, h1]; rfl) with hf | hf
    · obtain ⟨u, g1, g2⟩ := hi.fin i hf
      rw [h1] at g1; cases g1
      exact h5 hst g2
    · exact h5 hst (hi.lost t (List.mem_of_getElem? h1) fun h' => hf (has_rt.mpr ((hi.tags _ _).mpr h')))
  · rw [act_tag h]
    exact .inr ⟨h2, by simp [backOf]⟩

/-! ## Closing too early -/

/-- A task that will touch its database in its next turn. -/
def GetTask.Waits (t : GetTask) : Prop := t.state = .spawned ∨ ∃ β, ∃ (y : Atom β) (k : _), t.state = .asking (.step y k)

/-- A database that was closed does not come back. -/
theorem act_gone {x x' : CSt} {a : CAct} {r : CRet} (h : x.act a = .ok (r, x')) {c : Nat} (hc : c < x.heap.length)
    (hg : x.tag c ≠ some .hb) : c < x'.heap.length ∧ x'.tag c ≠ some .hb := by
  obtain ⟨h1, h2⟩ := act_fresh h
  refine ⟨Nat.lt_of_lt_of_le hc h1, fun h' => ?_⟩
  rcases (act_tag h c .hb).mp h' with h3 | h3
  · exact absurd hc (Nat.not_lt.mpr (h2 _ _ h3))
  · exact hg h3.1

/-- A task without its database stays where it is, as long as nothing is undefined and its runtime is
not closed. -/
theorem waits_act {x x' : CSt} {a : CAct} {r : CRet} (h : x.act a = .ok (r, x')) {i : Nat} {t : GetTask}
    (ht : x.tasks[i]? = some t) (hw : t.Waits) (hg : x.tag t.hb ≠ some .hb)
    (hc : a ≠ .closeRuntime (.cell t.rt) ∨ t.state ≠ .spawned) : x'.tasks[i]? = some t ∧ a ≠ .turn i ∧ a ≠ .closeRuntime (.cell t.rt) := by
  have hno : t.state ≠ .over := by
    rcases hw with h | ⟨_, _, _, h⟩ <;> rw [h] <;> simp
  cases (act_tasks h).1 with
  | same e h1 h2 h3 =>
    refine ⟨by rw [e]; exact ht, fun hh => ?_, h2 _⟩
    subst hh
    exact hno ((h3 i rfl).2 t ht)
  | get e => exact ⟨by rw [e, List.getElem?_append_left (List.getElem?_eq_some_iff.mp ht).1]; exact ht, by simp, by simp⟩
  | close e h1 h2 =>
    rename_i c
    by_cases hrt : t.rt = c
    · subst hrt
      rcases hw with hw | ⟨β, y, k, hw⟩
      · rcases hc with hc | hc
        · exact absurd rfl hc
        · exact absurd hw hc
      · exact absurd (h2 t (List.mem_of_getElem? ht) rfl _ _ _ hw) hg
    · refine ⟨by rw [e, List.getElem?_map, ht]; simp [hrt], by simp, ?_⟩
      simp; omega
  | goes e h1 h2 h3 h4 h5 =>
    rename_i j u s'
    by_cases hij : j = i
    · subst hij; rw [ht] at h1; cases h1; exact absurd h5 hg
    · refine ⟨by rw [e, List.getElem?_set_ne hij]; exact ht, by simpa using hij, by simp⟩
  | ends e h1 h2 h3 =>
    rename_i j u
    by_cases hij : j = i
    · subst hij; rw [ht] at h1; cases h1
      obtain ⟨p, h2⟩ := h2
      simp only [CSt.act, CSt.turn, ht] at h
      rcases hw with hw | ⟨β, y, k, hw⟩
      · rw [hw] at h2; cases h2
      · rw [hw] at h
        simp only at h
        split at h
        · cases h
        · rename_i ha
          obtain ⟨e1, ha2⟩ := hyperbeeAt_ok.mp ha
          rw [← Ptr.cell.inj e1] at ha2
          exact absurd (tag_some.mpr ⟨_, ha2, rfl⟩) hg
    · refine ⟨by rw [e, List.getElem?_set_ne hij]; exact ht, by simpa using hij, by simp⟩

theorem waits_run {i : Nat} {t : GetTask} (hw : t.Waits) : ∀ (acts : List CAct) {x : CSt}, x.tasks[i]? = some t →
    t.hb < x.heap.length → x.tag t.hb ≠ some .hb → (.closeRuntime (.cell t.rt) ∉ acts ∨ t.state ≠ .spawned) →
    (.turn i ∈ acts ∨ .closeRuntime (.cell t.rt) ∈ acts) → ∃ e, (x.run acts).2 = .error e
  | [], x, _, _, _, _, hm => by simp at hm
  | a :: as, x, ht, hlt, hg, hc, hm => by
    unfold CSt.run
    cases ha : x.act a with
    | error e => exact ⟨e, rfl⟩
    | ok z =>
      obtain ⟨r, x'⟩ := z
      obtain ⟨h1, h2, h3⟩ := waits_act ha ht hw hg (hc.imp (fun h h' => h (by rw [h']; simp)) id)
      obtain ⟨h4, h5⟩ := act_gone ha hlt hg
      exact waits_run hw as h1 h4 h5 (hc.imp (fun h h' => h (List.mem_cons_of_mem _ h')) id)
        (hm.imp (fun h => (List.mem_cons.mp h).resolve_left fun h => h2 h.symm)
          fun h => (List.mem_cons.mp h).resolve_left fun h => h3 h.symm)

/-- A task that is over does nothing. -/
theorem CInv.pending {disk : Bytes → Option (List Bytes)} {tr : CTrace} {x : CSt} (hi : CInv disk tr x) {i : Nat} {rt hb : Ptr}
    {key : Option Bytes} (hg : (cGets tr)[i]? = some (rt, hb, key)) (hf : ¬ Finished tr i) (hr : HasRuntime tr rt) :
    ∃ t, x.tasks[i]? = some t ∧ rt = .cell t.rt ∧ hb = .cell t.hb ∧ key = some t.key ∧ t.state ≠ .over := by
  rw [hi.gets, List.getElem?_map] at hg
  obtain ⟨t, h1, h2⟩ := Option.map_eq_some_iff.mp hg
  cases h2
  refine ⟨t, h1, rfl, rfl, rfl, fun h => ?_⟩
  rcases hi.over i t h1 h with h3 | h3
  · exact hf h3
  · exact h3 ((hi.tags _ _).mp (has_rt.mp hr))

/-- Turns that were given after the get was made. -/
theorem TaskStep.after {x x' : CSt} {a : CAct} {r : CRet} (h : TaskStep x a r x') {i : Nat} {t : GetTask}
    (ht : x.tasks[i]? = some t) : ∃ t', x'.tasks[i]? = some t' ∧ t'.rt = t.rt ∧ t'.hb = t.hb ∧ t'.key = t.key ∧
      ((a = .turn i ∨ t.state ≠ .spawned) → t'.state ≠ .spawned) := by
  cases h with
  | same e h1 h2 h3 =>
    refine ⟨t, by rw [e]; exact ht, rfl, rfl, rfl, fun h => ?_⟩
    rcases h with rfl | h
    · rw [(h3 i rfl).2 t ht]; simp
    · exact h
  | get e => exact ⟨t, by rw [e, List.getElem?_append_left (List.getElem?_eq_some_iff.mp ht).1]; exact ht, rfl, rfl, rfl, by simp⟩
  | close e =>
    rename_i c _ _
    refine ⟨if t.rt = c then { t with state := .over } else t, by rw [e, List.getElem?_map, ht]; rfl, ?_⟩
    split <;> simp
  | goes e h1 h2 h3 h4 h5 =>
    rename_i j u s'
    by_cases hij : j = i
    · subst hij; rw [ht] at h1; cases h1
      refine ⟨{ t with state := s' }, by rw [e, List.getElem?_set_self (List.getElem?_eq_some_iff.mp ht).1], rfl, rfl, rfl, fun _ => ?_⟩
      obtain ⟨p, rfl⟩ := h4
      simp
    · exact ⟨t, by rw [e, List.getElem?_set_ne hij]; exact ht, rfl, rfl, rfl, by simp [hij]⟩
  | ends e h1 h2 h3 =>
    rename_i j u
    by_cases hij : j = i
    · subst hij; rw [ht] at h1; cases h1
      exact ⟨{ t with state := .over }, by rw [e, List.getElem?_set_self (List.getElem?_eq_some_iff.mp ht).1], rfl, rfl, rfl,
        fun _ => by simp⟩
    · exact ⟨t, by rw [e, List.getElem?_set_ne hij]; exact ht, rfl, rfl, rfl, by simp [hij]⟩

theorem polled_run {i : Nat} : ∀ (acts : List CAct) {x y : CSt} {t : GetTask}, x.tasks[i]? = some t → (x.run acts).2 = .ok y →
    ∃ t', y.tasks[i]? = some t' ∧ t'.rt = t.rt ∧ t'.hb = t.hb ∧ t'.key = t.key ∧
      ((.turn i ∈ acts ∨ t.state ≠ .spawned) → t'.state ≠ .spawned)
  | [], x, y, t, ht, h => by cases h; exact ⟨t, ht, rfl, rfl, rfl, by simp⟩
  | a :: as, x, y, t, ht, h => by
    unfold CSt.run at h
    cases ha : x.act a with
    | error e => rw [ha] at h; cases h
    | ok z =>
      obtain ⟨r, x'⟩ := z
      rw [ha] at h
      obtain ⟨t1, h1, h2, h3, h4, h5⟩ := (act_tasks ha).1.after ht
      obtain ⟨t2, g1, g2, g3, g4, g5⟩ := polled_run as h1 h
      refine ⟨t2, g1, g2.trans h2, g3.trans h3, g4.trans h4, fun h' => g5 ?_⟩
      rcases h' with h' | h'
      · rcases List.mem_cons.mp h' with h' | h'
        · exact .inr (h5 (.inl h'.symm))
        · exact .inl h'
      · exact .inr (h5 (.inr h'))

/-- A task that is not over and would not finish in its next turn waits for its database. -/
theorem waits_of {disk : Bytes → Option (List Bytes)} {acts : List CAct} {x : CSt} (h : ((CSt.start disk).run acts).2 = .ok x)
    {i : Nat} {t : GetTask} (ht : x.tasks[i]? = some t) (ho : t.state ≠ .over) (hn : ¬ Finished (cTrace disk (acts ++ [.turn i])) i) :
    t.Waits := by
  have hfin : ∀ r x', x.act (.turn i) = .ok (r, x') → (r = .panicked ∨ ∃ c m q v n, r = .called c m q v n) → False := by
    intro r x' ha hr
    rw [cTrace_snoc h ha] at hn
    exact hn ⟨r, by simp, hr⟩
  cases hst : t.state with
  | over => exact absurd hst ho
  | spawned => exact .inl hst
  | asking p =>
    cases p with
    | step y k => exact .inr ⟨_, y, k, hst⟩
    | throw e =>
      exact (hfin .panicked (x.setTask i t .over) (by simp [CSt.act, CSt.turn, ht, hst]) (.inl rfl)).elim
    | pure r =>
      refine (hfin (x.finish r).1 ((x.finish r).2.setTask i t .over) (by simp [CSt.act, CSt.turn, ht, hst]) ?_).elim
      unfold CSt.finish
      split
      · exact .inr ⟨_, _, _, _, _, rfl⟩
      · exact .inl rfl

end Hyperbee
