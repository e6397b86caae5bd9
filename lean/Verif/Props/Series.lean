import Verif.Lemmas.Series
import Verif.Props.Ends

/-!
C75: runs one after the other with different configurations for the same directory.
-/

namespace Hycu
namespace Series

open Run (Env Input Tasks Sect program Untouched)
open Parallel (dirOf)

section

variable {env : Env} {result : ConfigNode → Block → StoreMap} {fs₀ fs : FileSystem} {u : List (List Sect × Bool)}

/-- C75: any number of runs one after the other, each with an input of its own.  A run computes the blocks of its
configuration that are not recorded, whatever the configuration was for which they were recorded, and the merger adds up
what was computed for any of the configurations. -/
theorem C75_series (h : After env fs₀ u fs) (hi : ∀ x ∈ u, Tasks env x.1 result) (h0 : ∀ x ∈ u, Untouched x.1 fs₀) :
    ∀ x ∈ u, ∀ s ∈ x.1, ∃ l, Shares (uses s.cfg.resultPath u) l ∧ (l ≠ [] → ∃ d, fs s.cfg.resultPath = some d) ∧
      ∀ d, fs s.cfg.resultPath = some d → ∃ r m, Merger.merge d = .ok ⟨0, some (Store.print m, Record.print r)⟩ ∧
        Tally m (l.flatMap fun x => result x.1 x.2) ∧ ∀ b, b ≠ [] → (b ∈ r ↔ b ∈ l.map Prod.snd) := by
  intro x hx s hs
  obtain ⟨-, l, h1, h2⟩ := h.at hi (fun x hx s hs => Untouched.at (h0 x hx) hs) _ (Untouched.at (h0 x hx) hs)
  refine ⟨l, h1, fun hl => ?_, fun d hd => ?_⟩
  · cases hd : fs s.cfg.resultPath with
    | some d => exact ⟨d, rfl⟩
    | none =>
      rw [hd] at h2
      obtain ⟨r, h3, h4⟩ := h2.initial
      obtain rfl : [] = r := Res.ok.inj h3
      obtain ⟨y, hy⟩ := List.exists_mem_of_ne_nil l hl
      obtain ⟨v, hv, -, h5⟩ := h1.mem y hy
      obtain ⟨z, hz, hv⟩ := List.mem_flatMap.1 hv
      obtain ⟨t, ht, rfl⟩ := List.mem_map.1 hv
      exact absurd ((h4 y.2 ((hi z hz).nonempty t (List.mem_filter.1 ht).1 _ h5)).2 (List.mem_map.2 ⟨y, hy, rfl⟩))
        List.not_mem_nil
  · rw [hd] at h2
    exact h2.merged

/-- C75: runs change nothing but the directories of their inputs. -/
theorem C75_frame (h : After env fs₀ u fs) (p : List Char) (hp : ∀ x ∈ u, ∀ s ∈ x.1, s.cfg.resultPath ≠ p) : fs p = fs₀ p := by
  induction h with
  | start => rfl
  | run h hl ih =>
    rw [hl.frame p (hp _ (List.mem_append_right _ List.mem_cons_self))]
    exact ih fun x hx => hp x (List.mem_append_left _ hx)

/-- C75: no block is computed twice, every block that was computed belongs to the configuration for which it was
computed, and all blocks of a complete run are recorded, but maybe by an earlier run with another configuration. -/
theorem C75_shares {us : List (Sect × Bool)} {l : List (ConfigNode × Block)} (h : Shares us l) :
    (l.map Prod.snd).Nodup ∧ (∀ x ∈ l, ∃ v ∈ us, v.1.cfg = x.1 ∧ x.2 ∈ v.1.blocks) ∧
      ∀ s, (s, true) ∈ us → ∀ b ∈ s.blocks, b ∈ l.map Prod.snd :=
  ⟨h.nodup, h.mem, fun _ hs => h.complete hs⟩

variable {ss₁ ss₂ : List Sect} {s₁ s₂ : Sect}

/-- C76: a directory has been used only for complete runs, by one or several of their sections.  Every block has been
computed for the first section that has it, and the merger adds up these results. -/
theorem C76_complete (h : After env fs₀ u fs) (hi : ∀ x ∈ u, Tasks env x.1 result) (h0 : ∀ x ∈ u, Untouched x.1 fs₀)
    {p : List Char} (hp : uses p u ≠ []) (hc : ∀ v ∈ uses p u, v.2 = true) : ∃ d r m, fs p = some d ∧
      Merger.merge d = .ok ⟨0, some (Store.print m, Record.print r)⟩ ∧
      Tally m ((firsts [] ((uses p u).map Prod.fst)).flatMap fun x => result x.1 x.2) ∧
      ∀ b, b ≠ [] → (b ∈ r ↔ ∃ v ∈ uses p u, b ∈ v.1.blocks) := by
  obtain ⟨v, hv⟩ := List.exists_mem_of_ne_nil _ hp
  have hv' : (v.1, true) ∈ uses p u := by
    rw [← hc v hv]
    exact hv
  obtain ⟨d, l, h1, h2, h3⟩ := h.exists hi h0 hv'
  obtain ⟨r, m, h4, h5, h6⟩ := h3.merged
  have hn : ∀ v ∈ uses p u, v.1.blocks.Nodup := by
    intro v hv
    obtain ⟨x, hx, hv⟩ := List.mem_flatMap.1 hv
    obtain ⟨t, ht, rfl⟩ := List.mem_map.1 hv
    exact (hi x hx).blocks t (List.mem_filter.1 ht).1
  refine ⟨d, r, m, h1, h4, Tally.perm h5 ((h2.perm hc hn).flatMap_right _), fun b hb => ?_⟩
  rw [h6 b hb]
  constructor
  · intro hl
    obtain ⟨x, hx, rfl⟩ := List.mem_map.1 hl
    obtain ⟨v, hv, -, h7⟩ := h2.mem x hx
    exact ⟨v, hv, h7⟩
  · rintro ⟨v, hv, hb⟩
    refine h2.complete (s := v.1) ?_ b hb
    rw [← hc v hv]
    exact hv

/-- C76: two uses of a directory, by two complete runs or by two sections of one.  The merger adds up the results of all
blocks of the first section, and of those blocks of the second that are not blocks of the first. -/
theorem C76_two (h : After env fs₀ u fs) (hi : ∀ x ∈ u, Tasks env x.1 result) (h0 : ∀ x ∈ u, Untouched x.1 fs₀)
    {p : List Char} (hu : uses p u = [(s₁, true), (s₂, true)]) : ∃ d r m, fs p = some d ∧
      Merger.merge d = .ok ⟨0, some (Store.print m, Record.print r)⟩ ∧
      Tally m (s₁.blocks.flatMap (result s₁.cfg) ++
        (s₂.blocks.filter fun b => b ∉ s₁.blocks).flatMap (result s₂.cfg)) ∧
      ∀ b, b ≠ [] → (b ∈ r ↔ b ∈ s₁.blocks ∨ b ∈ s₂.blocks) := by
  obtain ⟨d, r, m, h1, h2, h3, h4⟩ := C76_complete h hi h0 (p := p) (by rw [hu]; simp) (by rw [hu]; simp)
  refine ⟨d, r, m, h1, h2, ?_, fun b hb => ?_⟩
  · rw [hu] at h3
    simp only [List.map_cons, List.map_nil, firsts, List.nil_append, List.append_nil, List.flatMap_append, List.flatMap_map,
      List.not_mem_nil, not_false_eq_true, decide_true, List.filter_true] at h3
    exact h3
  · rw [h4 b hb, hu]
    simp

theorem two_runs (i₁ : Input env ss₁ result) (i₂ : Input env ss₂ result) (m₁ : s₁ ∈ ss₁) (m₂ : s₂ ∈ ss₂)
    (hp : s₁.cfg.resultPath = s₂.cfg.resultPath) :
    uses s₂.cfg.resultPath [(ss₁, true), (ss₂, true)] = [(s₁, true), (s₂, true)] := by
  show uses _ ([(ss₁, true)] ++ [(ss₂, true)]) = _
  rw [uses_append, uses_one, uses_one]
  unfold here
  rw [filter_path i₂.paths m₂, ← hp, filter_path i₁.paths m₁]
  rfl

/-- C75: two complete runs.  The merger adds up the results of all blocks of the first configuration, and of those blocks
of the second that are not blocks of the first. -/
theorem C75_two (h : After env fs₀ [(ss₁, true), (ss₂, true)] fs) (i₁ : Input env ss₁ result) (i₂ : Input env ss₂ result)
    (u₁ : Untouched ss₁ fs₀) (u₂ : Untouched ss₂ fs₀) (m₁ : s₁ ∈ ss₁) (m₂ : s₂ ∈ ss₂)
    (hp : s₁.cfg.resultPath = s₂.cfg.resultPath) : ∃ d r m, fs s₂.cfg.resultPath = some d ∧
      Merger.merge d = .ok ⟨0, some (Store.print m, Record.print r)⟩ ∧
      Tally m (s₁.blocks.flatMap (result s₁.cfg) ++
        (s₂.blocks.filter fun b => b ∉ s₁.blocks).flatMap (result s₂.cfg)) ∧
      ∀ b, b ≠ [] → (b ∈ r ↔ b ∈ s₁.blocks ∨ b ∈ s₂.blocks) :=
  C76_two h (by simpa using ⟨i₁.toTasks, i₂.toTasks⟩) (by simpa using ⟨u₁, u₂⟩) (two_runs i₁ i₂ m₁ m₂ hp)

/-- C75: if all blocks of the second configuration are blocks of the first, the second run changes nothing: the results
are still those of the first configuration. -/
theorem C75_kept (h : After env fs₀ [(ss₁, true), (ss₂, true)] fs) (i₁ : Input env ss₁ result) (i₂ : Input env ss₂ result)
    (u₁ : Untouched ss₁ fs₀) (u₂ : Untouched ss₂ fs₀) (m₁ : s₁ ∈ ss₁) (m₂ : s₂ ∈ ss₂)
    (hp : s₁.cfg.resultPath = s₂.cfg.resultPath) (hb : ∀ b ∈ s₂.blocks, b ∈ s₁.blocks) : ∃ d r m,
      fs s₂.cfg.resultPath = some d ∧ Merger.merge d = .ok ⟨0, some (Store.print m, Record.print r)⟩ ∧
      Tally m (s₁.blocks.flatMap (result s₁.cfg)) := by
  obtain ⟨d, r, m, h1, h2, h3, -⟩ := C75_two h i₁ i₂ u₁ u₂ m₁ m₂ hp
  refine ⟨d, r, m, h1, h2, ?_⟩
  rw [List.filter_eq_nil_iff.2 fun b h => by simpa using hb b h, List.flatMap_nil, List.append_nil] at h3
  exact h3

/-- What a further run finds. -/
theorem After.found (h : After env fs₀ u fs) (hi : ∀ x ∈ u, Tasks env x.1 result) (h0 : ∀ x ∈ u, Untouched x.1 fs₀)
    (p : List Char) (hp : At result (dirOf (fs₀ p)) []) :
    ∃ l, sharing (fun p => uses p u) p [] l ∧ At result (dirOf (fs p)) l :=
  sharing_start (fun p hp => (h.at hi (fun x hx _ hs => Untouched.at (h0 x hx) hs) p hp).2) p hp

/-- C75: no run fails because of what runs with other configurations have left behind, and every run can be completed. -/
theorem C75_continues (h : After env fs₀ u fs) (hi : ∀ x ∈ u, Tasks env x.1 result) (h0 : ∀ x ∈ u, Untouched x.1 fs₀)
    {ss : List Sect} (i : Tasks env ss result) (hu : Untouched ss fs₀) {kinds : List Bool} (hk : kinds.length < 4294967296) :
    (∀ st, Run.Reachable env (Run.initial kinds fs (program ss)) st → ∀ l, ∃ o, Run.step env st l = .ok o) ∧
      (kinds ≠ [] → (∀ s ∈ ss, Run.Nonzero s.cfg) → ∃ fs', After env fs₀ (u ++ [(ss, true)]) fs') := by
  have hs : ∀ st, Run.Reachable env (Run.initial kinds fs (program ss)) st → ∀ l, ∃ o, Run.step env st l = .ok o :=
    fun _ hr l => safe_threaded i (sharing_keeps _ ss) (fun _ hs => Untouched.at hu hs) (h.found hi h0) hk hr l
  refine ⟨hs, fun hne hz => ?_⟩
  obtain ⟨σ, ls, h1, h2, h3, h4⟩ := Run.exists_exec hk i.blocks fun st hr l => hs st hr l
  obtain ⟨n, h5⟩ := h1.ends hk hne i.blocks h2 h3
  exact ⟨_, h.run (.threadedEnd kinds (σ n) hk (h1.reachable n) h5 (h1.left_todo h4 hz (n := n) (by rw [h5]; rfl)))⟩

/-- C75: the same with several processes. -/
theorem C75_continues_mpi (h : After env fs₀ u fs) (hi : ∀ x ∈ u, Tasks env x.1 result) (h0 : ∀ x ∈ u, Untouched x.1 fs₀)
    {ss : List Sect} (i : Tasks env ss result) (hu : Untouched ss fs₀) {kinds : List (List Bool)} (hne : kinds ≠ [])
    (hk : ∀ k ∈ kinds, k.length < 4294967296) {st : Mpi.State}
    (hr : Mpi.Reachable env (Mpi.initial kinds fs (program ss)) st) (l : Mpi.Label) : ∃ o, Mpi.step env st l = .ok o :=
  safe_mpi i (sharing_keeps _ ss) (fun _ hs => Untouched.at hu hs) (h.found hi h0) hne hk hr l

/-- C76: runs of the same input, complete or interrupted, where sections may share a directory.  No block is computed
twice, every block is computed for the first section of the directory that has it, also by runs that continue, and after a
complete run the results are the same as if it had never been interrupted. -/
theorem C76_repeated {ss : List Sect} (h : After env fs₀ u fs) (hu : ∀ x ∈ u, x.1 = ss) (hi : Tasks env ss result)
    (h0 : Untouched ss fs₀) : ∀ s ∈ ss, ∃ l : List (ConfigNode × Block), (l.map Prod.snd).Nodup ∧
      (∀ x ∈ l, First (ss.filter fun t => t.cfg.resultPath = s.cfg.resultPath) x) ∧
      (∀ d, fs s.cfg.resultPath = some d → ∃ r m, Merger.merge d = .ok ⟨0, some (Store.print m, Record.print r)⟩ ∧
        Tally m (l.flatMap fun x => result x.1 x.2) ∧ ∀ b, b ≠ [] → (b ∈ r ↔ b ∈ l.map Prod.snd)) ∧
      ((ss, true) ∈ u → (∃ d, fs s.cfg.resultPath = some d) ∧
        l.Perm (firsts [] (ss.filter fun t => t.cfg.resultPath = s.cfg.resultPath))) := by
  intro s hs
  obtain ⟨K, h1, h2⟩ := h.repeating hu hi h0
  obtain ⟨l, ⟨h3, h4, h5⟩, h6⟩ := h2 _ ⟨s, hs, rfl⟩
  refine ⟨l, h3, h4, fun d hd => ?_, fun hm => ⟨?_, ?_⟩⟩
  · rw [hd] at h6
    exact h6.merged
  · exact Option.ne_none_iff_exists'.1 ((h1 hm).2 s hs)
  · obtain ⟨rfl, -⟩ := h1 hm
    refine perm_firsts (fun t ht => hi.blocks t (List.mem_filter.1 ht).1) h3 h4 fun t ht => ?_
    obtain ⟨h7, h8⟩ := List.mem_filter.1 ht
    exact h5 t (List.mem_append_left _ h7) (of_decide_eq_true h8)

end

end Series
end Hycu
