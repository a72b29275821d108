import Verif.Proof.PageEnds
import Verif.Props.Paging
/-!
# Reading page by page comes to an end (C100)
-/

namespace Hyperbee

theorem behind_nodup {conf : TraverseConfig} {l : List KeyValueData} (h : l.Pairwise fun x y => Behind conf x.key y.key) :
    (l.map (·.key)).Nodup := by
  rw [List.Nodup, List.pairwise_map]
  refine h.imp fun {x y} hb e => ?_
  unfold Behind at hb
  rw [e] at hb
  split at hb <;> exact List.lt_irrefl _ hb

/-! ## C100 -/

/-- A range is read page by page while other calls are made between pages, as in C94.  Let there be a tree,
and let each page be polled `8 * (log₅ version + 1)` times with its future ready.  If there are more pages
than keys that are ever seen in the range, some page says that there is nothing more. -/
theorem paging_ends (before : List Cmd) {b : TraverseConfigBuilder} {conf : TraverseConfig} (hb : b.build = .ok conf)
    (hfin : FiniteBounds b) (ps : List (List Cmd × List Bool)) (h2 : 2 ≤ (Db.empty.after before).version)
    (hpoll : ∀ (i : Nat) (p : List Cmd × List Bool) (v : Db), ps[i]? = some p → (views (Db.empty.after before) ps)[i]? = some v →
      8 * (Nat.log 5 v.version + 1) ≤ p.2.count true)
    (ks : List Bytes) (hks : ∀ v ∈ views (Db.empty.after before) ps, ∀ k, InRange conf k → v.map k ≠ none → k ∈ ks)
    (hlen : ks.length < ps.length) : ∃ r ∈ paging b ps (runSt before St.init), r.lastPage := by
  have hd := (run_refines before Holds.init).2
  rcases paging_live ps b ⟨before, rfl⟩ hd h2 hpoll with h | h
  · exact h
  · exfalso
    obtain ⟨h1, h3, _⟩ := paging_partial before hb hfin ps
    have hsub : (((paging b ps (runSt before St.init)).flatMap Reply.entries).map (·.key)) ⊆ ks := by
      intro k hk
      obtain ⟨e, he, rfl⟩ := List.mem_map.mp hk
      obtain ⟨r, hr, her⟩ := List.mem_flatMap.mp he
      obtain ⟨i, hi, hri⟩ := List.getElem_of_mem hr
      have hiv : i < (views (Db.empty.after before) ps).length := by rw [views_length]; rwa [paging_length] at hi
      obtain ⟨_, hx⟩ := h1 i r _ (by rw [List.getElem?_eq_getElem hi, hri]) (List.getElem?_eq_getElem hiv)
      obtain ⟨hx1, hx2⟩ := hx e her
      refine hks _ (List.getElem_mem hiv) _ hx2 fun hn => ?_
      rw [Db.entry, hn] at hx1
      cases hx1
    have := ((behind_nodup h3).subperm hsub).length_le
    rw [List.length_map] at this
    omega

/-- If moreover nothing in the range changes while it is read, whatever is written elsewhere, the pages
together are exactly what one traversal yields that is read to its end. -/
theorem paging_whole (before : List Cmd) {b : TraverseConfigBuilder} {conf : TraverseConfig} (hb : b.build = .ok conf)
    (hfin : FiniteBounds b) (ps : List (List Cmd × List Bool)) (h2 : 2 ≤ (Db.empty.after before).version)
    (hpoll : ∀ (i : Nat) (p : List Cmd × List Bool) (v : Db), ps[i]? = some p → (views (Db.empty.after before) ps)[i]? = some v →
      8 * (Nat.log 5 v.version + 1) ≤ p.2.count true)
    (hsame : ∀ v ∈ views (Db.empty.after before) ps, ∀ k, InRange conf k → v.map k = (Db.empty.after before).map k)
    {full : List KeyValueData} (hfull : Lists (runSt before St.init) conf full) (hlen : full.length < ps.length) :
    (paging b ps (runSt before St.init)).flatMap Reply.entries = full := by
  have hd := (run_refines before Holds.init).2
  obtain ⟨r, hr, hlast⟩ := paging_ends before hb hfin ps h2 hpoll (full.map (·.key)) (fun v hv k hk hm => by
    rw [hsame v hv k hk] at hm
    obtain ⟨p, hp⟩ := Option.ne_none_iff_exists'.mp hm
    exact List.mem_map.mpr ⟨⟨p.1, k, p.2⟩, (hfull.2 _).mpr ⟨(hd.get_iff _).mpr (by simp [Db.entry, hp]), hk⟩, rfl⟩)
    (by rwa [List.length_map])
  obtain ⟨h1, h3, h4⟩ := paging_partial before hb hfin ps
  have hmem : ∀ e ∈ (paging b ps (runSt before St.init)).flatMap Reply.entries,
      (Db.empty.after before).entry e.key = some e ∧ InRange conf e.key := by
    intro e he
    obtain ⟨r, hr, her⟩ := List.mem_flatMap.mp he
    obtain ⟨i, hi, hri⟩ := List.getElem_of_mem hr
    have hiv : i < (views (Db.empty.after before) ps).length := by rw [views_length]; rwa [paging_length] at hi
    obtain ⟨_, hx⟩ := h1 i r _ (by rw [List.getElem?_eq_getElem hi, hri]) (List.getElem?_eq_getElem hiv)
    obtain ⟨hx1, hx2⟩ := hx e her
    refine ⟨?_, hx2⟩
    rw [Db.entry, hsame _ (List.getElem_mem hiv) _ hx2] at hx1
    exact hx1
  refine Lists.unique ⟨?_, fun e => ⟨fun he => ?_, fun he => ?_⟩⟩ hfull
  · unfold Behind at h3
    cases hc : conf.reversed with
    | true => rw [hc] at h3; exact List.pairwise_reverse.mpr h3
    | false => rw [hc] at h3; exact h3
  · exact ⟨(hd.get_iff e).mpr (hmem e he).1, (hmem e he).2⟩
  · obtain ⟨he1, he2⟩ := he
    have hent := (hd.get_iff e).mp he1
    obtain ⟨j, hj, hrj⟩ := List.getElem_of_mem hr
    obtain ⟨i, r', _, hri, e', he', hk⟩ := h4 j r (by rw [List.getElem?_eq_getElem hj, hrj]) hlast e.key he2 (fun i v _ hv hn => by
      rw [hsame v (List.mem_of_getElem? hv) _ he2] at hn
      rw [Db.entry, hn] at hent
      cases hent)
    have hin : e' ∈ (paging b ps (runSt before St.init)).flatMap Reply.entries :=
      List.mem_flatMap.mpr ⟨r', List.mem_of_getElem? hri, he'⟩
    have := (hmem e' hin).1
    rw [hk, hent] at this
    cases this
    exact hin

/-- Twelve keys in two levels, of which six are in the range, read backwards; a key outside is written between pages.
Each page is polled sixteen times.  The last two configurations are refused: nothing can be left. -/
def demoEnds : List (List Cmd × List Bool) :=
  [([], List.replicate 16 true), ([.put [20] none], List.replicate 16 true), ([], List.replicate 16 true),
    ([.del [20]], List.replicate 16 true), ([], List.replicate 16 true), ([], List.replicate 16 true), ([], List.replicate 16 true)]

def demoEndsBefore : List Cmd := ([1, 3, 5, 7, 9, 2, 4, 6, 8, 10, 11, 12] : List UInt8).map fun k => .put [k] none

def demoEndsBuilder : TraverseConfigBuilder :=
  { minValue := some (.finite [3]), maxValue := some (.finite [9]), maxInclusive := some false, reversed := some true }

example : FiniteBounds demoEndsBuilder ∧ demoEndsBuilder.build.toOption.isSome ∧
    (views (Db.empty.after demoEndsBefore) demoEnds).map (·.version) = [13, 14, 14, 15, 15, 15, 15] ∧
    8 * (Nat.log 5 13 + 1) = 16 ∧ 8 * (Nat.log 5 15 + 1) = 16 ∧
    (paging demoEndsBuilder demoEnds (runSt demoEndsBefore St.init)).map (fun r => r.entries.map (·.key)) =
      [[[8], [7], [6]], [[5]], [[4], [3]], [], [], [], []] :=
  ⟨fun x => ⟨by simp [demoEndsBuilder], by simp [demoEndsBuilder]⟩, rfl, by decide +kernel, by decide +kernel, by decide +kernel,
    by decide +kernel⟩

end Hyperbee
