import Verif.Model.World
import Verif.Proof.Prefix
/-!
# A handle stays good while others write
-/

namespace Hyperbee

theorem Coh.grow {s : St} {R : Child → Prop} (h : Coh s R) (hr : ∀ r, R r → r.seq < s.core.length) (ext : List Bytes) :
    Coh { s with core := s.core ++ ext } R := by
  intro r hR a ha
  show s.heap[a]? = nodeAt (s.core ++ ext) r
  rw [nodeAt_append (hr r hR)]
  exact h r hR a ha

theorem Rep.seq_lt {c : List Bytes} {t : T} (h : Rep (nodeAt c) t) : ∀ r ∈ t.refs, r.seq < c.length := by
  intro r hr
  obtain ⟨n, hn⟩ := h.refs_some r hr
  exact nodeAt_lt hn

/-- After a write by somebody else, what a handle has cached still fits the new tree. -/
theorem Wrote.coh_other {c : List Bytes} {io : Io} {key : Bytes} {value : Option Bytes} {old : Child → Prop}
    {s' : St} {H : Nat} {t' : T} {flat : List Nat} {mx : Nat} (w : Wrote c io key value old s' H t' flat mx)
    {s : St} (hw : SWF s) (hle : s.core.length ≤ c.length) (hp : s.core <+: s'.core)
    (hold : ∀ r, old r → r.seq < s.core.length) (hc : Coh s old) :
    Coh { s with core := s'.core } (· ∈ t'.refs) := by
  intro r hr a ha
  have ha' : addrOf s r = some a := ha
  by_cases he : r.seq = c.length
  · unfold addrOf at ha'
    rw [hw.noCache _ (by omega)] at ha'
    cases ha'
  · have ho := w.live r hr he
    obtain ⟨ext, hx⟩ := hp
    show s.heap[a]? = nodeAt s'.core r
    rw [← hx, nodeAt_append (hold r ho)]
    exact hc r ho a ha'

/-- Another handle on the same core makes a call: this one then shows the new database. -/
theorem Holds.follow {s s2 : St} {d d2 : Db} (h : Holds s d) (h2 : Holds s2 d2) (hc : s2.core = s.core) (c : Cmd) :
    Holds { s with core := (exec c s2).2.core } (d2.next c) := by
  have hn := (exec_refines h2 c).2
  have hstep := exec_step h2 c
  have hp : s.core <+: (exec c s2).2.core := by
    rw [← hc]; exact run_appends [c] s2
  have hwf : SWF { s with core := (exec c s2).2.core } := by
    obtain ⟨ext, hx⟩ := hp
    have := h.wf.append ext
    rwa [hx] at this
  refine ⟨hwf, h.ok, hn.ver, ?_⟩
  rcases hn.store with hb | ⟨H, t, ht, _, hcon⟩
  · exact .inl hb
  · refine .inr ⟨H, t, ht, ?_, hcon⟩
    have old : ∀ {H0 : Nat} {t0 : T}, TreeAt s2.core H0 t0 → (∀ r ∈ t0.refs, r.seq < s.core.length) ∧ Coh s (· ∈ t0.refs) := by
      intro H0 t0 ht0
      rw [hc] at ht0
      refine ⟨ht0.rep.seq_lt, ?_⟩
      rcases h.store with hb | ⟨H1, t1, ht1, hc1, _⟩
      · have := hb.1; have := ht0.two; omega
      · rw [ht0.unique ht1]; exact hc1
    cases hstep with
    | same e _ =>
      rw [e] at ht ⊢
      obtain ⟨_, o2⟩ := old ht
      rw [hc]; exact o2
    | header m h0 e _ =>
      have := ht.two
      rw [e] at this; simp at this
    | first k v t' h1 e w =>
      have hl := St.ready_len h1
      rw [ht.unique w.tree]
      exact w.coh_other h.wf (by rw [← hc]; omega) hp (fun _ h => h.elim) (fun _ h => h.elim)
    | put k v H0 t0 H' t' m pre post ht0 e l w hH =>
      rw [ht.unique w.tree]
      obtain ⟨o1, o2⟩ := old ht0
      exact w.coh_other h.wf (by rw [hc]; exact Nat.le_refl _) hp o1 o2
    | del k H0 t0 H' t' q pre post ht0 e l w hH =>
      rw [ht.unique w.tree]
      obtain ⟨o1, o2⟩ := old ht0
      exact w.coh_other h.wf (by rw [hc]; exact Nat.le_refl _) hp o1 o2

/-- The same for a whole history through the other handle. -/
theorem Holds.follows : ∀ (cs : List Cmd) {s s2 : St} {d d2 : Db}, Holds s d → Holds s2 d2 → s2.core = s.core →
    ∃ d', Holds { s with core := (runSt cs s2).core } d' := by
  intro cs
  induction cs with
  | nil =>
    intro s s2 d d2 h _ hc
    exact ⟨d, by show Holds { s with core := s2.core } d; rw [hc]; exact h⟩
  | cons c cs ih =>
    intro s s2 d d2 h h2 hc
    have h' := h.follow h2 hc c
    obtain ⟨d', hd⟩ := ih h' (exec_refines h2 c).2 rfl
    exact ⟨d', hd⟩

/-- The cores of two handles that agreed still agree after the same call. -/
theorem call_same {s s2 : St} {d d2 : Db} (h : Holds s d) (h2 : Holds s2 d2) (hc : s2.core = s.core) (c : Cmd) :
    (exec c s).1 = (exec c s2).1 ∧ (exec c s).2.core = (exec c s2).2.core := by
  have := runs_same [c] h h2 hc
  exact ⟨by simpa [runReplies, run] using this.1, this.2⟩

theorem Holds.io {s : St} {d : Db} (h : Holds s d) : s.io = Io.good := by
  have h1 := h.wf.rd
  have h2 := h.ok
  obtain ⟨c, ⟨rd, ok⟩, ca, hp⟩ := s
  simp only at h1 h2
  rw [h2, show rd = fun _ => true from funext h1]
  rfl

theorem World.set_at (w : World) (i : Nat) {s : St} (h : s.io = Io.good) : (w.set i s).at i = s := by
  obtain ⟨c, io, ca, hp⟩ := s
  simp only at h
  simp [World.set, World.at, h]

theorem World.set_other (w : World) {i j : Nat} (s : St) (h : j ≠ i) :
    (w.set i s).at j = { w.at j with core := s.core } := by
  simp [World.set, World.at, h]

theorem World.exec_at (w : World) (i : Nat) (c : Cmd) {d : Db} (h : Holds (Hyperbee.exec c (w.at i)).2 d) :
    (w.exec i c).2.at i = (Hyperbee.exec c (w.at i)).2 := w.set_at i h.io

theorem World.exec_other (w : World) {i j : Nat} (c : Cmd) (h : j ≠ i) :
    (w.exec i c).2.at j = { w.at j with core := (Hyperbee.exec c (w.at i)).2.core } := w.set_other _ h

/-- All handles show the same database. -/
def World.All (w : World) (d : Db) : Prop := ∀ i, Holds (w.at i) d

theorem World.All.init : World.init.All Db.empty := fun _ => Holds.init

theorem World.All.exec {w : World} {d : Db} (hw : w.All d) (i : Nat) (c : Cmd) : (w.exec i c).2.All (d.next c) := by
  have hi := (exec_refines (hw i) c).2
  intro j
  by_cases hj : j = i
  · subst hj; rw [w.exec_at j c hi]; exact hi
  · rw [w.exec_other c hj]; exact (hw j).follow (hw i) rfl c

theorem World.All.run : ∀ (cs : List (Nat × Cmd)) {w : World} {d : Db}, w.All d →
    (World.run cs w).2.All (d.after (cs.map (·.2))) := by
  intro cs
  induction cs with
  | nil => intro w d h; exact h
  | cons p cs ih =>
    obtain ⟨i, c⟩ := p
    intro w d h
    exact ih (h.exec i c)

/-- Any interleaving of calls through several handles gives the replies of one handle. -/
theorem World.run_same : ∀ (cs : List (Nat × Cmd)) {w : World} {s : St} {d : Db}, w.All d → Holds s d →
    s.core = w.core →
    (World.run cs w).1 = runReplies (cs.map (·.2)) s ∧ (World.run cs w).2.core = (runSt (cs.map (·.2)) s).core := by
  intro cs
  induction cs with
  | nil => intro w s d _ _ hc; exact ⟨rfl, hc.symm⟩
  | cons p cs ih =>
    obtain ⟨i, c⟩ := p
    intro w s d hw hs hc
    obtain ⟨e1, e2⟩ := call_same (hw i) hs hc c
    have hall := World.All.exec hw i c
    obtain ⟨r1, r2⟩ := ih hall (exec_refines hs c).2 e2.symm
    refine ⟨?_, r2⟩
    show (w.exec i c).1 :: (World.run cs (w.exec i c).2).1 = (Hyperbee.exec c s).1 :: runReplies (cs.map (·.2)) (Hyperbee.exec c s).2
    rw [r1]
    exact congrArg (· :: _) e1

end Hyperbee
