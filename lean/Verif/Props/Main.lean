import Verif.Lemmas.RunStops
import Verif.Props.Config
import Verif.Props.Ends
import Verif.Props.MpiEnds
import Verif.Spec.Main

/-!
C53: the main functions: what is read, what is returned, and what has been done by then.
-/

namespace Hycu

namespace Main

open Run (Env Sect program Input Nonzero Complete Ahead configsOf configsOf_program)

variable {env : Env} {fs fs' : FileSystem} {ss : List Sect} {result : ConfigNode → Block → StoreMap}

theorem merged {s : Sect} (h : Complete result fs s) : Merged result fs s := by
  obtain ⟨d, ps, h1, _, h3, ⟨h4, _⟩, h5⟩ := h
  obtain ⟨o, h6, h7⟩ := merge_holds h3
  refine ⟨d, o.1, o.2, h1, h6, Run.tally_sections h4 h5 h7.sum, fun b hb => ?_⟩
  rw [h7.union.mem b hb, ← h5.mem_iff, Run.recorded, List.mem_flatMap]

theorem exitCode_program (rest : List Sect) : exitCode (program rest) = 0 ↔ rest = [] := by
  cases rest with
  | nil => simp [exitCode, program]
  | cons s rest => simp [exitCode, program]

theorem exitCode_le (todo : List Run.Cmd) : exitCode todo = 0 ∨ exitCode todo = 1 := by
  unfold exitCode
  split <;> simp

theorem stopped {pre post : List Sect} {fs₀ fs : FileSystem} (hp : (ss.map fun s => s.cfg.resultPath).Nodup)
    (h : Ahead fs₀ (ss.map fun s => s.cfg) fs (program post) true false) (hs : ss = pre ++ post)
    (hc : ∀ s ∈ pre, Complete result fs s) : Stopped result fs₀ fs pre post where
  nonzero s hs' := by
    rcases h.passed s.cfg (List.mem_map.2 ⟨s, by rw [hs]; exact List.mem_append_left _ hs', rfl⟩) with h1 | h1
    · rw [configsOf_program] at h1
      obtain ⟨s', h2, h3⟩ := List.mem_map.1 h1
      rw [hs, List.map_append] at hp
      exact absurd (by rw [h3]) (List.disjoint_of_nodup_append hp (List.mem_map.2 ⟨s, hs', rfl⟩) |> fun h4 h5 =>
        h4 (List.mem_map.2 ⟨s', h2, h5⟩) : ¬ s'.cfg.resultPath = s.cfg.resultPath)
    · exact h1
  merged s hs' := merged (hc s hs')
  reason s later he := by
    subst he
    rcases h.left rfl with h1 | ⟨c, rest, h1, h2⟩
    · cases h1
    · cases h1
      exact h2
  head s later he := by
    subst he
    exact h.head s.cfg rfl
  later s later he s' hs' := by
    subst he
    refine h.later s'.cfg ?_
    rw [configsOf_program]
    exact List.mem_map.2 ⟨s', hs', rfl⟩

theorem todo_program {rest : List Sect} {todo : List Run.Cmd} (h : todo = program rest) (hz : todo = [] ∨ ∃ c r,
    todo = .config c :: r ∧ ¬ Nonzero c) : rest = [] ∨ ∃ s later, rest = s :: later ∧ ¬ Nonzero s.cfg := by
  cases rest with
  | nil => exact Or.inl rfl
  | cons s rest =>
    rcases hz with hz | ⟨c, r, h1, h2⟩
    · rw [h] at hz
      cases hz
    · rw [h] at h1
      cases h1
      exact Or.inr ⟨s, rest, rfl, h2⟩

/-- C53: whenever a run of `hycu-threaded` has ended, it has worked off the sections before a certain one, has not
touched those after it, and returns 0 if there is none. -/
theorem C53_stops {kinds : List Bool} {st : Run.State} (hi : Input env ss result) (hp : Run.Past env ss fs)
    (hk : kinds.length < 4294967296) (hr : Run.Reachable env (Run.initial kinds fs (program ss)) st)
    (hpc : st.pc = .finished) : ∃ done rest, ss = done ++ rest ∧ st.todo = program rest ∧
      Stopped result fs st.fs done rest ∧ (exitCode st.todo = 0 ↔ rest = []) := by
  have ha := Ahead.reachable hi hk (hp.kept hi) hr
  obtain ⟨pre, post, h1, h2, h3⟩ := (Run.DataInv.reachable hi hk (hp.kept hi) hr).stopped hi
    ((Run.Good.init env hk fs hi.blocks).reachable hr) (Run.all_done hk hi.blocks hr (by rw [hpc]; rfl)).2.1 hpc
    ((ha.left (by rw [hpc]; rfl)).imp id fun ⟨c, rest, h, _⟩ => ⟨c, rest, h⟩)
  rw [h2, hpc] at ha
  exact ⟨pre, post, h1, h2, stopped hi.paths ha h1 h3, by rw [h2, exitCode_program]⟩

/-- C53: the same for `hycu-mpi`. -/
theorem C53_stops_mpi {kinds : List (List Bool)} {st : Mpi.State} (hi : Input env ss result) (hp : Mpi.Past env ss fs)
    (h0 : kinds ≠ []) (hk : ∀ k ∈ kinds, k.length < 4294967296)
    (hr : Mpi.Reachable env (Mpi.initial kinds fs (program ss)) st) (hpc : st.pc = .finished) :
    ∃ done rest, ss = done ++ rest ∧ st.todo = program rest ∧ Stopped result fs st.fs done rest ∧
      (exitCode st.todo = 0 ↔ rest = []) := by
  have ha := Mpi.ahead_reachable hi h0 hk (hp.kept hi) hr
  obtain ⟨pre, post, h1, h2, h3⟩ := (Mpi.DataInv.reachable hi h0 hk (hp.kept hi) hr).stopped hi
    ((Mpi.Inv.start hi h0 hk).reachable hr) hpc
    ((ha.left (by rw [hpc]; rfl)).imp id fun ⟨c, rest, h, _⟩ => ⟨c, rest, h⟩)
  rw [h2, hpc] at ha
  exact ⟨pre, post, h1, h2, stopped hi.paths ha h1 h3, by rw [h2, exitCode_program]⟩

theorem code_iff {todo : List Run.Cmd} {done rest : List Sect} (h1 : ss = done ++ rest)
    (h2 : ∀ s ∈ done, Nonzero s.cfg) (h3 : exitCode todo = 0 ↔ rest = [])
    (h4 : rest = [] ∨ ∃ s later, rest = s :: later ∧ ¬ Nonzero s.cfg) :
    (exitCode todo = 0 ↔ ∀ s ∈ ss, Nonzero s.cfg) ∧ (exitCode todo = 1 ↔ ∃ s ∈ ss, ¬ Nonzero s.cfg) := by
  have h5 : exitCode todo = 0 ↔ ∀ s ∈ ss, Nonzero s.cfg := by
    rw [h3]
    constructor
    · intro h
      rw [h1, h, List.append_nil]
      exact h2
    · intro h
      rcases h4 with h4 | ⟨s, later, h4, h6⟩
      · exact h4
      · exact absurd (h s (by rw [h1, h4]; simp)) h6
  refine ⟨h5, ?_⟩
  constructor
  · intro h
    by_contra hc
    push Not at hc
    rw [h5.2 hc] at h
    cases h
  · rintro ⟨s, hs, hz⟩
    rcases exitCode_le todo with h | h
    · exact absurd (h5.1 h s hs) hz
    · exact h

/-- C53: every run of `hycu-threaded` ends (under the hypotheses of C51); if directories can be created, then exactly the
sections before the first one with a zero have been worked off, and 0 is returned if and only if there is no zero. -/
theorem C53_ends {kinds : List Bool} {σ : Nat → Run.State} {ls : Nat → Run.Label} (hi : Input env ss result)
    (hp : Run.Past env ss fs) (hk : kinds.length < 4294967296) (h0 : kinds ≠ [])
    (h : Run.Exec env (Run.initial kinds fs (program ss)) σ ls) (ha : ∀ n, Run.Alert (σ n) (ls n))
    (hn : Run.Renewing σ ls) (hc : Run.Creating ls) :
    ∃ n done rest, (σ n).pc = .finished ∧ ss = done ++ rest ∧ Stopped result fs (σ n).fs done rest ∧
      (rest = [] ∨ ∃ s later, rest = s :: later ∧ ¬ Nonzero s.cfg) ∧
      (exitCode (σ n).todo = 0 ↔ ∀ s ∈ ss, Nonzero s.cfg) ∧ (exitCode (σ n).todo = 1 ↔ ∃ s ∈ ss, ¬ Nonzero s.cfg) := by
  obtain ⟨n, hf⟩ := Run.C51_ends hk h0 hi.blocks h ha hn
  have hf := (hf n le_rfl).1
  obtain ⟨done, rest, h1, h2, h3, h4⟩ := C53_stops hi hp hk (h.reachable n) hf
  have h5 := todo_program h2 ((h.leaving hc n).todo (by rw [hf]; rfl))
  exact ⟨n, done, rest, hf, h1, h3, h5, code_iff h1 h3.nonzero h4 h5⟩

/-- C53: the same for `hycu-mpi`; moreover all workers return. -/
theorem C53_ends_mpi {kinds : List (List Bool)} {σ : Nat → Mpi.State} {ls : Nat → Mpi.Label} (hi : Input env ss result)
    (hp : Mpi.Past env ss fs) (hk : ∀ k ∈ kinds, k.length < 4294967296) (hx : ∃ k ∈ kinds, k ≠ [])
    (h : Mpi.Exec env (Mpi.initial kinds fs (program ss)) σ ls) (ha : ∀ n, Mpi.Alert (σ n) (ls n))
    (hn : Mpi.Renewing σ ls) (hc : Mpi.Creating ls) :
    ∃ n done rest, (σ n).pc = .finished ∧ (∀ ix, 0 < ix → ix < kinds.length → ((σ n).procs ix).pc = .returned) ∧
      ss = done ++ rest ∧ Stopped result fs (σ n).fs done rest ∧
      (rest = [] ∨ ∃ s later, rest = s :: later ∧ ¬ Nonzero s.cfg) ∧
      (exitCode (σ n).todo = 0 ↔ ∀ s ∈ ss, Nonzero s.cfg) ∧ (exitCode (σ n).todo = 1 ↔ ∃ s ∈ ss, ¬ Nonzero s.cfg) := by
  have h0 : kinds ≠ [] := by
    obtain ⟨k, hk, _⟩ := hx
    exact List.ne_nil_of_mem hk
  obtain ⟨n, hf⟩ := Mpi.C52_ends hk hx hi.blocks h ha hn
  obtain ⟨hf, hw, _⟩ := hf n le_rfl
  obtain ⟨done, rest, h1, h2, h3, h4⟩ := C53_stops_mpi hi hp h0 hk (h.reachable n) hf
  have h5 := todo_program h2 ((h.leaving hc n).todo (by rw [hf]; rfl))
  exact ⟨n, done, rest, hf, hw, h1, h3, h5, code_iff h1 h3.nonzero h4 h5⟩

/-! ### What is read -/

theorem entries_node (c : ConfigNode) : ∃ es, node c = .map es ∧ entries es = Yaml.encode c := by
  refine ⟨_, rfl, ?_⟩
  unfold entries
  rw [List.map_map]
  refine (List.map_congr_left fun e _ => ?_).trans (List.map_id _)
  obtain ⟨k, v⟩ := e
  cases v <;> rfl

theorem config_node {c : ConfigNode} (h : c.InRange) : config (node c) = .ok c := by
  obtain ⟨es, h1, h2⟩ := entries_node c
  rw [h1, config, h2, C44_round_trip c h]
  rfl

theorem config_node_abort {c : ConfigNode} (h : ¬ c.InRange) : config (node c) = .abort := by
  obtain ⟨es, h1, h2⟩ := entries_node c
  rw [h1, config, h2, C44_out_of_range c h]
  rfl

theorem configs_nodes {cs : List ConfigNode} (h : ∀ c ∈ cs, c.InRange) : (cs.map node).mapM config = Res.ok cs := by
  induction cs with
  | nil => rfl
  | cons c cs ih =>
    rw [List.map_cons, List.mapM_cons, config_node (h c List.mem_cons_self),
      ih fun c hc => h c (List.mem_cons_of_mem _ hc)]
    rfl

theorem read_map (out : List Char) (es : List (List Char × YamlNode)) : read out (.map es) = (do
    if ← storeType es then
      let cs ← configs es
      pure (.run (cs.map fun c => c.prependOutputPath out))
    else pure (.exit 1)) := rfl

theorem start_eq {w : World} {o : Options} {file out : List Char} (hh : o.help = false)
    (hf : o.configFile = some file) (ho : o.outputPath = some out) : start w o = (do
      let made ← makeOutput w out
      if made.2 then
        if w.isFile file then do
          let doc ← w.load file
          let s ← read (w.canonical out) doc
          pure (made.1, s)
        else pure (made.1, .exit 1)
      else pure (made.1, .exit 1)) := by
  unfold start
  rw [hh, hf, ho]
  rfl

/-- The output directory is there afterwards; nothing else changes. -/
theorem makeOutput_ok {w : World} {out : List Char} (hd : (w.fs (w.canonical out)).isSome ∨ w.create = .ok true) :
    ∃ fs, makeOutput w out = .ok (fs, true) ∧ (fs (w.canonical out)).isSome ∧
      (∀ p, p ≠ w.canonical out → fs p = w.fs p) ∧ ((w.fs (w.canonical out)).isSome → fs = w.fs) := by
  unfold makeOutput
  by_cases ht : (w.fs (w.canonical out)).isSome = true
  · rw [if_pos ht]
    exact ⟨_, rfl, ht, fun _ _ => rfl, fun _ => rfl⟩
  · rw [if_neg ht, hd.resolve_left ht]
    exact ⟨_, rfl, by simp [FileSystem.set], fun p hp => by simp [FileSystem.set, hp], fun h => absurd h ht⟩

theorem makeOutput_same {w : World} {out : List Char} {r : FileSystem × Bool} (h : makeOutput w out = .ok r) :
    ∀ p, p ≠ w.canonical out → r.1 p = w.fs p := by
  unfold makeOutput at h
  split at h
  · cases h
    exact fun _ _ => rfl
  · cases hc : w.create with
    | ok b =>
      rw [hc] at h
      cases h
      intro p hp
      cases b
      · rfl
      · simp [FileSystem.set, hp]
    | _ =>
      rw [hc] at h
      cases h

theorem components_nil : components [] = [] := rfl

theorem components_append (a b : List Char) : components (a ++ '/' :: b) = components a ++ components b := by
  unfold components
  rw [List.splitOn_append_cons_self, List.filter_append]

/-- C53: the directory of a configuration is the one of this name below the output directory: its path has the names of the
output path and after them those of the path in the file, whether the latter begins with a separator or the output path
ends with one.  It is absolute if the output path is.  Nothing else of the configuration is changed. -/
theorem C53_path (c : ConfigNode) (out : List Char) :
    components (c.prependOutputPath out).resultPath = components out ++ components c.resultPath ∧
      (out ≠ [] → (c.prependOutputPath out).resultPath.head? = out.head?) ∧
      { c.prependOutputPath out with resultPath := c.resultPath } = c := by
  unfold ConfigNode.prependOutputPath
  split
  · next h =>
    refine ⟨?_, fun _ => rfl, rfl⟩
    simp [h, components_nil]
  · split
    · next h =>
      refine ⟨?_, fun h' => ?_, rfl⟩
      · dsimp only
        rcases h with h | h | h
        · subst h
          simp [components_nil]
        · obtain ⟨l, hl⟩ := List.head?_eq_some_iff.1 h
          rw [hl, components_append, ← List.nil_append ('/' :: l), components_append, components_nil, List.nil_append]
        · obtain ⟨l, hl⟩ := List.getLast?_eq_some_iff.1 h
          rw [hl, List.append_assoc, List.singleton_append, components_append, components_append, components_nil,
            List.append_nil]
      · cases out with
        | nil => exact absurd rfl h'
        | cons x xs => rfl
    · refine ⟨components_append _ _, fun h' => ?_, rfl⟩
      cases out with
      | nil => exact absurd rfl h'
      | cons x xs => rfl

example : components ((⟨5, 1, 1, false, 1, "q5/g1".toList, 30⟩ : ConfigNode).prependOutputPath
    "/home/x/out".toList).resultPath =
    ["home".toList, "x".toList, "out".toList, "q5".toList, "g1".toList] := by decide +kernel

/-- C53: a file with a list of configurations (in any order of its entries, and with the type of the store or without
it) is read as these configurations, in this order, and nothing but the output directory is created. -/
theorem C53_reads (w : World) (o : Options) {file out : List Char} {es : List (List Char × YamlNode)}
    {cs : List ConfigNode} (hh : o.help = false) (hf : o.configFile = some file) (ho : o.outputPath = some out)
    (hd : (w.fs (w.canonical out)).isSome ∨ w.create = .ok true) (hr : w.isFile file = true)
    (hl : w.load file = .ok (.map es)) (hs : lookup "StoreType".toList es = none ∨
      lookup "StoreType".toList es = some (.scalar "EC".toList))
    (hm : lookup "Moduli".toList es = some (.seq (cs.map node))) (hc : ∀ c ∈ cs, c.InRange) :
    ∃ fs, start w o = .ok (fs, .run (cs.map fun c => c.prependOutputPath (w.canonical out))) ∧
      (fs (w.canonical out)).isSome ∧ (∀ p, p ≠ w.canonical out → fs p = w.fs p) ∧
      ((w.fs (w.canonical out)).isSome → fs = w.fs) := by
  have hst : storeType es = .ok true := by
    unfold storeType
    rcases hs with hs | hs <;> rw [hs]
    rfl
  have hcs : configs es = .ok cs := by
    unfold configs
    rw [hm]
    exact configs_nodes hc
  have hread : read (w.canonical out) (.map es) = .ok (.run (cs.map fun c => c.prependOutputPath (w.canonical out))) := by
    rw [read_map, hst, hcs]
    rfl
  obtain ⟨fs, h1, h2⟩ := makeOutput_ok hd
  refine ⟨fs, ?_, h2⟩
  rw [start_eq hh hf ho, h1, hr, hl]
  show (read (w.canonical out) (.map es)).bind _ = _
  rw [hread]
  rfl

/-- C53: a file with a single configuration and nothing else. -/
theorem C53_reads_one (w : World) (o : Options) {file out : List Char} {c : ConfigNode} (hh : o.help = false)
    (hf : o.configFile = some file) (ho : o.outputPath = some out)
    (hd : (w.fs (w.canonical out)).isSome ∨ w.create = .ok true) (hr : w.isFile file = true)
    (hl : w.load file = .ok (node c)) (hc : c.InRange) :
    ∃ fs, start w o = .ok (fs, .run [c.prependOutputPath (w.canonical out)]) ∧
      (fs (w.canonical out)).isSome ∧ (∀ p, p ≠ w.canonical out → fs p = w.fs p) ∧
      ((w.fs (w.canonical out)).isSome → fs = w.fs) := by
  obtain ⟨es, h1, h2⟩ := entries_node c
  have hget : ∀ key, (lookup key es).isNone = (Yaml.get (Yaml.encode c) key).isNone := by
    intro key
    rw [← h2]
    clear h1 h2
    induction es with
    | nil => rfl
    | cons e es ih =>
      unfold lookup entries
      rw [List.map_cons, Yaml.get]
      split
      · rfl
      · exact ih
  have hnone : lookup "StoreType".toList es = none ∧ lookup "Moduli".toList es = none := by
    rw [← Option.isNone_iff_eq_none, ← Option.isNone_iff_eq_none, hget, hget, encode_eq]
    by_cases h : c.countExponent = c.genus
    · simp only [h, ne_eq, not_true, if_false]
      exact ⟨rfl, rfl⟩
    · simp only [h, ne_eq, not_false_eq_true, if_true]
      exact ⟨rfl, rfl⟩
  have hread : read (w.canonical out) (.map es) = .ok (.run [c.prependOutputPath (w.canonical out)]) := by
    rw [read_map]
    unfold storeType configs
    rw [hnone.1, hnone.2]
    show (config (.map es) >>= _) >>= _ = _
    rw [← h1, config_node hc]
    rfl
  rw [h1] at hl
  obtain ⟨fs, h3, h4⟩ := makeOutput_ok hd
  refine ⟨fs, ?_, h4⟩
  rw [start_eq hh hf ho, h3, hr, hl]
  show (read (w.canonical out) (.map es)).bind _ = _
  rw [hread]
  rfl

theorem mapM_abort {cs : List ConfigNode} (h : ∃ c ∈ cs, ¬ c.InRange) : (cs.map node).mapM config = Res.abort := by
  induction cs with
  | nil => simp at h
  | cons c cs ih =>
    rw [List.map_cons, List.mapM_cons]
    by_cases hc : c.InRange
    · rw [config_node hc]
      obtain ⟨c', h1, h2⟩ := h
      rcases List.mem_cons.1 h1 with rfl | h1
      · exact absurd hc h2
      · have := ih ⟨c', h1, h2⟩
        rw [this]
        rfl
    · rw [config_node_abort hc]
      rfl

/-- C53: a single number that is too large makes the program terminate before any configuration is used. -/
theorem C53_too_large (w : World) (o : Options) {file out : List Char} {es : List (List Char × YamlNode)}
    {cs : List ConfigNode} (hh : o.help = false) (hf : o.configFile = some file) (ho : o.outputPath = some out)
    (hd : (w.fs (w.canonical out)).isSome ∨ w.create = .ok true) (hr : w.isFile file = true)
    (hl : w.load file = .ok (.map es)) (hs : lookup "StoreType".toList es = none)
    (hm : lookup "Moduli".toList es = some (.seq (cs.map node))) (hc : ∃ c ∈ cs, ¬ c.InRange) :
    start w o = .abort := by
  have hst : storeType es = .ok true := by
    unfold storeType
    rw [hs]
  have hcs : configs es = .abort := by
    unfold configs
    rw [hm]
    exact mapM_abort hc
  have hread : read (w.canonical out) (.map es) = .abort := by
    rw [read_map, hst, hcs]
    rfl
  obtain ⟨fs, h3, _⟩ := makeOutput_ok hd
  rw [start_eq hh hf ho, h3, hr, hl]
  show (read (w.canonical out) (.map es)).bind _ = _
  rw [hread]
  rfl

theorem read_exit {out : List Char} {doc : YamlNode} {code : Nat} (h : read out doc = .ok (.exit code)) :
    code = 1 ∧ ∃ es v, doc = .map es ∧ lookup "StoreType".toList es = some v ∧ v ≠ .scalar "EC".toList := by
  cases doc with
  | map es =>
    rw [read_map] at h
    unfold storeType at h
    cases hl : lookup "StoreType".toList es with
    | none =>
      rw [hl] at h
      cases hc : configs es <;> simp only [hc] at h <;> cases h
    | some v =>
      rw [hl] at h
      cases v with
      | scalar text =>
        by_cases ht : text = "EC".toList
        · subst ht
          cases hc : configs es <;> simp only [hc] at h <;> cases h
        · have : Yaml.as some (some (YamlNode.scalar text).value) = .ok text := rfl
          simp only [this] at h
          change (if decide (text = "EC".toList) = true then _ else _) = _ at h
          rw [if_neg (by simpa using ht)] at h
          cases h
          exact ⟨rfl, es, _, rfl, hl, fun hv => ht (by cases hv; rfl)⟩
      | _ => cases h
  | _ => cases h

/-- What has happened before configurations are used. -/
theorem start_run {w : World} {o : Options} {fs : FileSystem} {cs : List ConfigNode} (h : start w o = .ok (fs, .run cs)) :
    ∃ file out doc, o.configFile = some file ∧ o.outputPath = some out ∧
      ((w.fs (w.canonical out)).isSome ∨ w.create = .ok true) ∧ w.isFile file = true ∧ w.load file = .ok doc ∧
      read (w.canonical out) doc = .ok (.run cs) := by
  cases hh : o.help with
  | true =>
    unfold start at h
    rw [hh] at h
    cases h
  | false =>
    cases hf : o.configFile with
    | none =>
      unfold start at h
      rw [hh, hf] at h
      cases h
    | some file =>
      cases ho : o.outputPath with
      | none =>
        unfold start at h
        rw [hh, hf, ho] at h
        cases h
      | some out =>
        rw [start_eq hh hf ho] at h
        have hmade : ∀ r, makeOutput w out = .ok r → r.2 = true →
            (w.fs (w.canonical out)).isSome ∨ w.create = .ok true := by
          intro r hr h2
          unfold makeOutput at hr
          split at hr
          · next ht => exact Or.inl ht
          · cases hc : w.create with
            | ok b =>
              rw [hc] at hr
              cases hr
              exact Or.inr (congrArg Res.ok h2)
            | _ =>
              rw [hc] at hr
              cases hr
        cases hm : makeOutput w out with
        | ok r =>
          rw [hm, Res.bind_ok] at h
          split at h
          · next h2 =>
            split at h
            · next h3 =>
              cases hl : w.load file with
              | ok doc =>
                rw [hl, Res.bind_ok] at h
                cases hr : read (w.canonical out) doc with
                | ok s =>
                  rw [hr] at h
                  cases h
                  exact ⟨file, out, doc, rfl, rfl, hmade r hm h2, h3, hl, hr⟩
                | _ =>
                  rw [hr] at h
                  cases h
              | _ =>
                rw [hl] at h
                cases h
            · cases h
          · cases h
        | _ =>
          rw [hm] at h
          cases h

theorem mapM_config {items : List YamlNode} {cs : List ConfigNode} (h : items.mapM config = Res.ok cs) :
    ∀ x ∈ items, ∃ es, x = .map es := by
  induction items generalizing cs with
  | nil => simp
  | cons y items ih =>
    rw [List.mapM_cons] at h
    cases hy : config y with
    | ok c =>
      rw [hy, Res.bind_ok] at h
      cases hm : items.mapM config with
      | ok cs' =>
        intro x hx
        rcases List.mem_cons.1 hx with rfl | hx
        · cases x with
          | map es => exact ⟨es, rfl⟩
          | _ => cases hy
        · exact ih hm x hx
      | _ =>
        rw [hm] at h
        cases h
    | _ =>
      rw [hy] at h
      cases h

/-- C53: no configuration is used if the output directory could not be created. -/
theorem C53_no_directory (w : World) (o : Options) {file out : List Char} (hh : o.help = false)
    (hf : o.configFile = some file) (ho : o.outputPath = some out) (hn : w.fs (w.canonical out) = none)
    (hc : w.create = .ok false) : start w o = .ok (w.fs, .exit 1) := by
  rw [start_eq hh hf ho]
  unfold makeOutput
  rw [hn, hc]
  rfl

/-- C53: no configuration is used if the document is not a map, or if one item in the list of configurations is not a
map, even if it is the last one. -/
theorem C53_malformed (w : World) (o : Options) {file : List Char} {doc : YamlNode} (hf : o.configFile = some file)
    (hl : w.load file = .ok doc) (hd : (∀ es, doc ≠ .map es) ∨ ∃ es items x, doc = .map es ∧
      lookup "Moduli".toList es = some (.seq items) ∧ x ∈ items ∧ ∀ es', x ≠ .map es') :
    ∀ fs cs, start w o ≠ .ok (fs, .run cs) := by
  intro fs cs h
  obtain ⟨file', out, doc', h1, _, _, _, h2, h3⟩ := start_run h
  rw [hf] at h1
  cases h1
  rw [hl] at h2
  cases h2
  rcases hd with hd | ⟨es, items, x, rfl, hm, hx, hne⟩
  · cases doc with
    | map es => exact hd es rfl
    | _ => cases h3
  · rw [read_map] at h3
    cases hs : storeType es with
    | ok b =>
      rw [hs, Res.bind_ok] at h3
      cases b with
      | false => cases h3
      | true =>
        unfold configs at h3
        rw [hm] at h3
        cases hi : items.mapM config with
        | ok cs' =>
          obtain ⟨es', he⟩ := mapM_config hi x hx
          exact hne es' he
        | _ =>
          simp only [hi] at h3
          cases h3
    | _ =>
      rw [hs] at h3
      cases h3

/-- A node that is read as a configuration is a map which `decode` accepts. -/
theorem config_ok {n : YamlNode} {c : ConfigNode} (h : config n = .ok c) :
    ∃ es, n = .map es ∧ Yaml.decode (entries es) = .ok (some c) := by
  cases n with
  | map es =>
    refine ⟨es, rfl, ?_⟩
    obtain ⟨o, h1, h2⟩ := Res.bind_eq_ok.1 h
    cases o with
    | none => cases h2
    | some c' =>
      cases h2
      exact h1
  | _ => cases h

theorem mapM_config_ok : ∀ {items : List YamlNode} {ds : List ConfigNode}, items.mapM config = Res.ok ds →
    List.Forall₂ (fun i d => ∃ es, i = YamlNode.map es ∧ Yaml.decode (entries es) = .ok (some d)) items ds
  | [], ds, h => by
    cases h
    exact .nil
  | i :: items, ds, h => by
    rw [List.mapM_cons] at h
    obtain ⟨c, h1, h2⟩ := Res.bind_eq_ok.1 h
    obtain ⟨cs, h3, h4⟩ := Res.bind_eq_ok.1 h2
    cases h4
    exact .cons (config_ok h1) (mapM_config_ok h3)

/-- C53: nothing else is read.  If the main function works on configurations, then the document is a map, the type of the
store is `EC` or not given, and the configurations are the items of the list under `Moduli`, or the document itself if there
is no such entry; there are none if the entry has no items.  In particular a map with entries under `Moduli` is not
accepted. -/
theorem C53_only {w : World} {o : Options} {fs : FileSystem} {cs : List ConfigNode} (h : start w o = .ok (fs, .run cs)) :
    ∃ (file out : List Char) (es : List (List Char × YamlNode)) (ds : List ConfigNode), o.configFile = some file ∧
      o.outputPath = some out ∧ w.load file = .ok (.map es) ∧
      (lookup "StoreType".toList es = none ∨ lookup "StoreType".toList es = some (.scalar "EC".toList)) ∧
      cs = ds.map (fun d => d.prependOutputPath (w.canonical out)) ∧
      ((lookup "Moduli".toList es = none ∧ ∃ d, ds = [d] ∧ Yaml.decode (entries es) = .ok (some d)) ∨
       (∃ items, lookup "Moduli".toList es = some (.seq items) ∧ List.Forall₂ (fun i d => ∃ es', i = YamlNode.map es' ∧
          Yaml.decode (entries es') = .ok (some d)) items ds) ∨
       (ds = [] ∧ ∃ v, lookup "Moduli".toList es = some v ∧ (v = .null ∨ v = .map [] ∨ ∃ t, v = .scalar t))) := by
  obtain ⟨file, out, doc, h1, h2, -, -, h5, h6⟩ := start_run h
  cases doc with
  | map es =>
    rw [read_map] at h6
    obtain ⟨b, h7, h8⟩ := Res.bind_eq_ok.1 h6
    cases b with
    | false => cases h8
    | true =>
      obtain ⟨ds, h9, h10⟩ := Res.bind_eq_ok.1 h8
      cases h10
      refine ⟨file, out, es, ds, h1, h2, h5, ?_, rfl, ?_⟩
      · unfold storeType at h7
        cases hl : lookup "StoreType".toList es with
        | none => exact .inl rfl
        | some v =>
          rw [hl] at h7
          cases v with
          | scalar t =>
            have : t = "EC".toList := by
              have := Res.ok.inj h7
              simpa using this
            exact .inr (by rw [this])
          | _ => cases h7
      · unfold configs at h9
        split at h9
        · rename_i hm
          obtain ⟨c, h11, h12⟩ := Res.bind_eq_ok.1 h9
          cases h12
          obtain ⟨es', h13, h14⟩ := config_ok h11
          cases h13
          exact .inl ⟨hm, c, rfl, h14⟩
        · rename_i items hm
          exact .inr (.inl ⟨items, hm, mapM_config_ok h9⟩)
        · rename_i hm
          cases h9
          exact .inr (.inr ⟨rfl, _, hm, .inr (.inl rfl)⟩)
        · cases h9
        · rename_i v h11 h12 h13 hm
          cases h9
          refine .inr (.inr ⟨rfl, v, hm, ?_⟩)
          cases v with
          | null => exact .inl rfl
          | scalar t => exact .inr (.inr ⟨t, rfl⟩)
          | seq items => exact absurd hm (by first | exact h11 items | simp_all)
          | map es' => simp_all
  | _ => cases h6

/-- Why nothing has been done. -/
def Refused (w : World) (o : Options) : Prop :=
  o.configFile = none ∨ o.outputPath = none ∨ ∃ file out, o.configFile = some file ∧ o.outputPath = some out ∧
    ((w.fs (w.canonical out) = none ∧ w.create = .ok false) ∨ w.isFile file = false ∨
      ∃ es v, w.load file = .ok (.map es) ∧ lookup "StoreType".toList es = some v ∧ v ≠ .scalar "EC".toList)

/-- C53: the value returned without any configuration being used is 0 if and only if help has been asked for, and 1
otherwise, where an option is missing, the output directory or the file is not there, or the type of the store is not
known; nothing but the output directory has been created. -/
theorem C53_exit (w : World) (o : Options) {fs : FileSystem} {code : Nat} (h : start w o = .ok (fs, .exit code)) :
    (code = 0 ↔ o.help = true) ∧ (code = 1 ↔ o.help = false) ∧ (o.help = true → fs = w.fs) ∧
      (o.help = false → Refused w o) ∧
      ∀ p, (∀ out, o.outputPath = some out → p ≠ w.canonical out) → fs p = w.fs p := by
  cases hh : o.help with
  | true =>
    unfold start at h
    rw [if_pos hh] at h
    cases h
    simp
  | false =>
    suffices hs : code = 1 ∧ Refused w o ∧
        ∀ p, (∀ out, o.outputPath = some out → p ≠ w.canonical out) → fs p = w.fs p by
      refine ⟨by simp [hs.1], by simp [hs.1], by simp, fun _ => hs.2.1, hs.2.2⟩
    cases hf : o.configFile with
    | none =>
      unfold start at h
      rw [hh, hf] at h
      cases h
      exact ⟨rfl, Or.inl hf, fun _ _ => rfl⟩
    | some file =>
      cases ho : o.outputPath with
      | none =>
        unfold start at h
        rw [hh, hf, ho] at h
        cases h
        exact ⟨rfl, Or.inr (Or.inl ho), fun _ _ => rfl⟩
      | some out =>
        rw [start_eq hh hf ho] at h
        cases hm : makeOutput w out with
        | ok r =>
          rw [hm] at h
          change (if r.2 = true then _ else _) = _ at h
          have hsame := makeOutput_same hm
          split at h
          · split at h
            · cases hl : w.load file with
              | ok doc =>
                rw [hl] at h
                change (read (w.canonical out) doc).bind _ = _ at h
                cases hrd : read (w.canonical out) doc with
                | ok s =>
                  rw [hrd] at h
                  cases h
                  obtain ⟨h1, es, v, h2, h3⟩ := read_exit hrd
                  exact ⟨h1, Or.inr (Or.inr ⟨file, out, hf, ho, Or.inr (Or.inr ⟨es, v, by rw [hl, h2], h3⟩)⟩),
                    fun p hp => hsame p (hp out rfl)⟩
                | _ =>
                  rw [hrd] at h
                  cases h
              | _ =>
                rw [hl] at h
                cases h
            · rename_i hr
              cases h
              exact ⟨rfl, Or.inr (Or.inr ⟨file, out, hf, ho, Or.inr (Or.inl (by simpa using hr))⟩),
                fun p hp => hsame p (hp out rfl)⟩
          · rename_i hr
            cases h
            refine ⟨rfl, Or.inr (Or.inr ⟨file, out, hf, ho, Or.inl ?_⟩), fun p hp => hsame p (hp out rfl)⟩
            unfold makeOutput at hm
            split at hm
            · cases hm
              exact absurd rfl hr
            · rename_i ht
              refine ⟨by simpa [Option.isSome_iff_ne_none] using ht, ?_⟩
              cases hc : w.create with
              | ok b =>
                rw [hc] at hm
                cases hm
                simpa using hr
              | _ =>
                rw [hc] at hm
                cases hm
        | _ =>
          rw [hm] at h
          cases h

/-! ### The start of several processes -/

/-- What is sent are the values in their order, and what is received are the first ones among them. -/
structure Boot.Ordered (values : List Int) (b : Boot) : Prop where
  order : b.sent ++ b.values = values
  prefixes : ∀ ix, b.received ix <+: b.sent

theorem Boot.Ordered.reachable {n : Nat} {s : Start} {o : Options} {b : Boot} (h : Boot.Reachable (.initial n s o) b) :
    Boot.Ordered [0, o.nmbThreads, o.threadsPerGpu] b ∧ b.nprocs = n ∧ b.master = s := by
  induction h with
  | refl => exact ⟨⟨rfl, fun _ => List.nil_prefix⟩, rfl, rfl⟩
  | step h hs ih =>
    obtain ⟨ih, h1, h2⟩ := ih
    cases hs with
    | send cs v vs h hv =>
      refine ⟨⟨?_, fun ix => (ih.prefixes ix).trans (List.prefix_append _ _)⟩, h1, h2⟩
      rw [← ih.order, hv]
      simp
    | receive ix v vs h0 hx h =>
      refine ⟨⟨ih.order, fun iy => ?_⟩, h1, h2⟩
      by_cases hy : iy = ix
      · subst hy
        simp only [Function.update_self]
        exact ⟨vs, by rw [h]; simp⟩
      · simp only [Function.update_of_ne hy]
        exact ih.prefixes iy

/-- C53: if the main function of the master returns before it makes a pool, then no worker ever gets any value: all of
them wait in the first broadcast. -/
theorem C53_workers_hang {n code : Nat} {o : Options} {b : Boot} (h : Boot.Reachable (.initial n (.exit code) o) b) :
    ∀ ix, b.received ix = [] ∧ ¬ b.Up ix := by
  have key : b.sent = [] ∧ b.master = .exit code := by
    induction h with
    | refl => exact ⟨rfl, rfl⟩
    | step h hs ih =>
      cases hs with
      | send cs v vs h hv =>
        rw [ih.2] at h
        cases h
      | receive ix v vs h0 hx h => exact ih
  intro ix
  have h1 := ((Boot.Ordered.reachable h).1).prefixes ix
  rw [key.1, List.prefix_nil] at h1
  exact ⟨h1, by unfold Boot.Up; rw [h1]; simp⟩

/-- How many values are still to be sent and received. -/
def Boot.left (b : Boot) : Nat :=
  b.values.length + ∑ ix ∈ Finset.range b.nprocs, (3 - (b.received ix).length)

/-- C53: if the master makes a pool, then every worker gets the same values as the master, in the same order, and starts
the threads for them; every step makes progress, and when there are no more steps all workers are in their loops. -/
theorem C53_workers_start {n : Nat} {cs : List ConfigNode} {o : Options} {b : Boot}
    (h : Boot.Reachable (.initial n (.run cs) o) b) :
    (∀ ix, b.Up ix → ∀ devices hardware, b.kinds devices hardware ix =
      some (Run.sparkKinds (devices ix) o.threadsPerGpu (hardware ix) o.nmbThreads)) ∧
    (∀ b', Boot.Step b b' → b'.left < b.left) ∧
    ((∀ b', ¬ Boot.Step b b') → ∀ ix, 0 < ix → ix < n → b.Up ix) := by
  obtain ⟨ho, hn, hm⟩ := Boot.Ordered.reachable h
  have hpre : ∀ ix, b.received ix <+: [0, o.nmbThreads, (o.threadsPerGpu : Int)] := fun ix =>
    (ho.prefixes ix).trans ⟨_, ho.order⟩
  refine ⟨fun ix hx devices hardware => ?_, fun b' hs => ?_, fun hs ix h0 hx => ?_⟩
  · have h1 := List.IsPrefix.eq_of_length (hpre ix) (by rw [hx]; rfl)
    unfold Boot.kinds
    rw [h1]
    rfl
  · cases hs with
    | send cs v vs h hv =>
      unfold Boot.left
      simp only [hv, List.length_cons]
      omega
    | receive ix v vs h0 hx h =>
      unfold Boot.left
      have hlen : (b.received ix).length < 3 := by
        have h1 := (ho.prefixes ix).length_le
        have h2 := congrArg List.length ho.order
        rw [h] at h2
        simp only [List.length_append, List.length_cons, List.length_nil] at h2
        omega
      have hlt : ∑ iy ∈ Finset.range b.nprocs,
            (3 - (Function.update b.received ix (b.received ix ++ [v]) iy).length) <
          ∑ iy ∈ Finset.range b.nprocs, (3 - (b.received iy).length) := by
        refine Finset.sum_lt_sum (fun iy _ => ?_) ⟨ix, Finset.mem_range.2 hx, ?_⟩
        · by_cases hy : iy = ix
          · subst hy
            simp only [Function.update_self, List.length_append, List.length_singleton]
            omega
          · simp only [Function.update_of_ne hy, le_refl]
        · simp only [Function.update_self, List.length_append, List.length_singleton]
          omega
      exact Nat.add_lt_add_left hlt _
  · have hv : b.values = [] := by
      cases hv : b.values with
      | nil => rfl
      | cons v vs => exact absurd (.send b cs v vs hm hv) (hs _)
    have hr : b.received ix = b.sent := by
      obtain ⟨t, ht⟩ := ho.prefixes ix
      cases t with
      | nil => rw [← ht, List.append_nil]
      | cons v vs => exact absurd (.receive b ix v vs h0 (by rw [hn]; exact hx) ht.symm) (hs _)
    unfold Boot.Up
    have h1 := ho.order
    rw [hv, List.append_nil] at h1
    rw [hr, h1]
    rfl

/-- C53: there is a thread if and only if there is an OpenCL device that gets threads, or the number of threads given is
positive, or it is negative and the hardware has threads. -/
theorem C53_threads (devices perGpu hardware : Nat) (n : Int) : Run.sparkKinds devices perGpu hardware n ≠ [] ↔
    0 < devices * perGpu ∨ 0 < n ∨ (n < 0 ∧ 0 < hardware) := by
  unfold Run.sparkKinds
  simp only [ne_eq, List.append_eq_nil_iff, List.replicate_eq_nil_iff, not_and_or]
  generalize devices * perGpu = d
  split <;> rename_i hn <;> omega

/-! ### From the file to the numbers -/

theorem nonzero {w : Flint} {c : ConfigNode} (s : w.Setting c) (h : c.Feasible) : Nonzero c := by
  let _ := s.field
  let _ := s.fintype
  let _ := s.decEq
  obtain ⟨h1, h2, _⟩ := s.built.facts
  exact ⟨h1.ne_zero, h2.ne', h.genus_pos.ne', h.count_pos.ne', h.package_pos.ne'⟩

/-- C53: `hycu-threaded` with a file that lists configurations: a run over the blocks of these configurations ends, 0 is
returned, and the merged files have the numbers of polynomials. -/
theorem C53_total {w : Flint} (W : World) (o : Options) {file out : List Char} {es : List (List Char × YamlNode)}
    {cs : List ConfigNode} (hh : o.help = false) (hf : o.configFile = some file) (ho : o.outputPath = some out)
    (hd : (W.fs (W.canonical out)).isSome ∨ W.create = .ok true) (hr : W.isFile file = true)
    (hl : W.load file = .ok (.map es)) (hs : lookup "StoreType".toList es = none ∨
      lookup "StoreType".toList es = some (.scalar "EC".toList))
    (hm : lookup "Moduli".toList es = some (.seq (cs.map node))) (hc : ∀ c ∈ cs, c.InRange)
    {devices hardware : Nat} (hk : (Run.sparkKinds devices o.threadsPerGpu hardware o.nmbThreads).length < 4294967296)
    (h0 : 0 < devices * o.threadsPerGpu ∨ 0 < o.nmbThreads ∨ (o.nmbThreads < 0 ∧ 0 < hardware)) :
    ∃ fs cs', start W o = .ok (fs, .run cs') ∧ ∀ ss : List Sect, (ss.map fun s => s.cfg) = cs' →
      ∀ (hw : ∀ s ∈ ss, w.Setting s.cfg), (∀ s ∈ ss, s.cfg.Feasible) →
      (∀ s hs k, (hw s hs).count k < 4611686018427387904) → (ss.map fun s => s.cfg.resultPath).Nodup →
      (∀ s ∈ ss, Terminates (w.blocks s.cfg) s.blocks) → Run.Past w.env ss fs →
      ∀ σ ls, Run.Exec w.env (Run.initial (Run.sparkKinds devices o.threadsPerGpu hardware o.nmbThreads) fs
          (program ss)) σ ls → (∀ n, Run.Alert (σ n) (ls n)) → Run.Renewing σ ls → Run.Creating ls →
      ∃ n, (σ n).pc = .finished ∧ exitCode (σ n).todo = 0 ∧ ∀ c ∈ cs, ∃ s, ∃ hs : s ∈ ss, ∃ d r m,
        s.cfg = c.prependOutputPath (W.canonical out) ∧
        (σ n).fs (c.prependOutputPath (W.canonical out)).resultPath = some d ∧
        Merger.merge d = .ok ⟨0, some (Store.print m, Record.print r)⟩ ∧ OMap.Sorted m ∧
        ∀ k z, (k, z) ∈ m ↔ 0 < z ∧ z = (hw s hs).count k := by
  obtain ⟨fs, h1, _⟩ := C53_reads W o hh hf ho hd hr hl hs hm hc
  refine ⟨fs, _, h1, fun ss hss hw hfe hn hp hb hpast σ ls hex hal hre hcr => ?_⟩
  have hi := Flint.input (fun s hs => ⟨hw s hs, hn s hs⟩) hfe hp hb
  obtain ⟨n, h2, h3, _⟩ := Run.C51_complete hi hpast (fun s hs => nonzero (hw s hs) (hfe s hs)) hk
    ((C53_threads _ _ _ _).2 h0) hex hal hre hcr
  have h4 := C47_threaded hw hfe hn hp hb hpast hk (hex.reachable n) h2 h3
  refine ⟨n, h2, by rw [h3]; rfl, fun c hc' => ?_⟩
  obtain ⟨s, h5, h6⟩ := List.mem_map.1 (hss ▸ List.mem_map.2 ⟨c, hc', rfl⟩ :
    c.prependOutputPath (W.canonical out) ∈ ss.map fun s => s.cfg)
  obtain ⟨d, r, m, h7⟩ := h4 s h5
  exact ⟨s, h5, d, r, m, h6, h6 ▸ h7⟩

/-! ### Examples -/

/-- Three sections; the second one has genus 0. -/
def zeroSects : List Sect :=
  [⟨⟨7, 1, 2, false, 1, "a".toList, 100⟩, [[(0, 10)]]⟩, ⟨⟨11, 1, 0, false, 1, "b".toList, 100⟩, []⟩,
    ⟨⟨13, 1, 2, false, 1, "c".toList, 100⟩, [[(0, 10)]]⟩]

theorem zero_input : Input Mpi.demoEnv zeroSects Mpi.demoResult where
  paths := by decide
  blocks := by decide
  nonempty := by decide
  fit := by decide
  compute := fun _ _ _ _ => rfl
  keys := by
    intro s hs b hb e he
    rw [List.mem_singleton.1 he]
    clear he
    refine ⟨by simp, by simp, ?_, ?_⟩
    · revert b s
      decide
    · revert b s
      decide
  counts := by
    intro s _ b _ e he
    rw [List.mem_singleton.1 he]
    show (0 : Int) ≤ 3
    decide
  small := by
    intro s hs k
    simp only [zeroSects, List.mem_cons, List.not_mem_nil, or_false] at hs
    rcases hs with rfl | rfl | rfl
    · show Small (total [(⟨[7], [1]⟩, 3)] k)
      by_cases hk : (⟨[7], [1]⟩ : Key) = k
      · subst hk
        exact ⟨by decide, by decide⟩
      · simp [total, hk, Small]
    · show Small (total [] k)
      simp [total, Small]
    · show Small (total [(⟨[13], [1]⟩, 3)] k)
      by_cases hk : (⟨[13], [1]⟩ : Key) = k
      · subst hk
        exact ⟨by decide, by decide⟩
      · simp [total, hk, Small]

theorem zero_first {done rest : List Sect} (h : zeroSects = done ++ rest) (hz : ∀ s ∈ done, Nonzero s.cfg)
    (hr : rest = [] ∨ ∃ s later, rest = s :: later ∧ ¬ Nonzero s.cfg) :
    ∃ s₁ s₂ s₃, zeroSects = [s₁, s₂, s₃] ∧ done = [s₁] ∧ rest = [s₂, s₃] := by
  have h7 : Nonzero (⟨7, 1, 2, false, 1, "a".toList, 100⟩ : ConfigNode) := by constructor <;> decide
  refine ⟨_, _, _, rfl, ?_⟩
  rcases done with _ | ⟨a, _ | ⟨b, done⟩⟩
  · rw [List.nil_append] at h
    rcases hr with hr | ⟨s, later, hr, hn⟩
    · rw [hr] at h
      cases h
    · rw [hr] at h
      cases h
      exact absurd h7 hn
  · cases h
    exact ⟨rfl, rfl⟩
  · obtain ⟨_, h1⟩ := List.cons.inj h
    obtain ⟨h2, _⟩ := List.cons.inj h1
    exact absurd (by rw [← h2]) (hz b (List.mem_cons_of_mem _ List.mem_cons_self)).genus

/-- Hypotheses of `C53_stops` and `C53_ends`: the run of `hycu-threaded` works off the first section, returns 1, and does
not touch the third one. -/
example : ∃ st, Run.Reachable Mpi.demoEnv (Run.initial [true, false] (fun _ => none) (program zeroSects)) st ∧
    st.pc = .finished ∧ exitCode st.todo = 1 ∧ st.fs "c".toList = none ∧
    Merged Mpi.demoResult st.fs ⟨⟨7, 1, 2, false, 1, "a".toList, 100⟩, [[(0, 10)]]⟩ := by
  have hp : Run.Past Mpi.demoEnv zeroSects (fun _ => none) := .start _ fun s _ d hd => by cases hd
  obtain ⟨σ, ls, h1, h2, h3, h4⟩ := Run.C51_exists (fs := fun _ => none) (kinds := [true, false]) zero_input hp
    (by decide)
  obtain ⟨n, done, rest, h5, h6, h7, h8, _, h9⟩ := C53_ends zero_input hp (by decide) (by decide) h1 h2 h3 h4
  obtain ⟨s₁, s₂, s₃, e1, e2, e3⟩ := zero_first h6 h7.nonzero h8
  cases e1
  refine ⟨σ n, h1.reachable n, h5, h9.2 ⟨⟨⟨11, 1, 0, false, 1, "b".toList, 100⟩, []⟩, by simp [zeroSects], fun h => h.genus rfl⟩, ?_, ?_⟩
  · exact h7.later _ _ e3 _ List.mem_cons_self
  · exact h7.merged _ (by rw [e2]; exact List.mem_cons_self)

/-- The same for three processes, of which the last has no thread. -/
example : ∃ st, Mpi.Reachable Mpi.demoEnv (Mpi.initial [[true], [false], []] (fun _ => none) (program zeroSects)) st ∧
    st.pc = .finished ∧ exitCode st.todo = 1 ∧ st.fs "c".toList = none ∧
    Merged Mpi.demoResult st.fs ⟨⟨7, 1, 2, false, 1, "a".toList, 100⟩, [[(0, 10)]]⟩ := by
  have hp : Mpi.Past Mpi.demoEnv zeroSects (fun _ => none) := .start _ fun s _ d hd => by cases hd
  obtain ⟨σ, ls, h1, h2, h3, h4⟩ := Mpi.C52_exists (fs := fun _ => none) (kinds := [[true], [false], []]) zero_input hp
    (by decide) (by decide)
  obtain ⟨n, done, rest, h5, _, h6, h7, h8, _, h9⟩ := C53_ends_mpi zero_input hp (by decide)
    ⟨_, List.mem_cons_self, by decide⟩ h1 h2 h3 h4
  obtain ⟨s₁, s₂, s₃, e1, e2, e3⟩ := zero_first h6 h7.nonzero h8
  cases e1
  refine ⟨σ n, h1.reachable n, h5, h9.2 ⟨⟨⟨11, 1, 0, false, 1, "b".toList, 100⟩, []⟩, by simp [zeroSects], fun h => h.genus rfl⟩, ?_, ?_⟩
  · exact h7.later _ _ e3 _ List.mem_cons_self
  · exact h7.merged _ (by rw [e2]; exact List.mem_cons_self)

/-- Two configurations in a file. -/
def demoWorld : World where
  canonical p := '/' :: p
  fs p := if p = "/out".toList then some [] else none
  create := .ok true
  isFile p := p = "moduli.yaml".toList
  load _ := .ok (.map [("Moduli".toList, .seq ([⟨7, 1, 2, false, 1, "a".toList, 100⟩, ⟨11, 1, 1, true, 1, [], 5⟩].map node)),
    ("StoreType".toList, .scalar "EC".toList)])

set_option maxRecDepth 4000 in
/-- Hypotheses of `C53_reads`: the output directory is made, and two configurations are read. -/
example : ∃ fs, start demoWorld ⟨false, some "moduli.yaml".toList, some "new".toList, -1, 1⟩ =
    .ok (fs, .run [⟨7, 1, 2, false, 1, "/new/a".toList, 100⟩, ⟨11, 1, 1, true, 1, "/new".toList, 5⟩]) ∧
    fs "/new".toList = some [] := ⟨_, rfl, rfl⟩

/-- Hypotheses of `C53_exit`: the output path is missing, the file does not exist. -/
example : start demoWorld ⟨false, some "moduli.yaml".toList, none, -1, 1⟩ = .ok (demoWorld.fs, .exit 1) ∧
    start demoWorld ⟨false, some "b.yaml".toList, some "out".toList, -1, 1⟩ = .ok (demoWorld.fs, .exit 1) ∧
    start demoWorld ⟨true, some "b.yaml".toList, some "out".toList, -1, 1⟩ = .ok (demoWorld.fs, .exit 0) :=
  ⟨rfl, rfl, rfl⟩

/-- Another type of stores. -/
example : start { demoWorld with load := fun _ => .ok (.map [("StoreType".toList, .scalar "CM".toList)]) }
    ⟨false, some "moduli.yaml".toList, some "out".toList, -1, 1⟩ = .ok (demoWorld.fs, .exit 1) := rfl

/-- Hypotheses of `C53_reads_one`: a file with one configuration. -/
example : start { demoWorld with load := fun _ => .ok (node ⟨7, 1, 2, false, 1, "a".toList, 100⟩) }
    ⟨false, some "moduli.yaml".toList, some "out".toList, -1, 1⟩ =
    .ok (demoWorld.fs, .run [⟨7, 1, 2, false, 1, "/out/a".toList, 100⟩]) := rfl

example : start { demoWorld with create := .ok false } ⟨false, some "moduli.yaml".toList, some "new".toList, -1, 1⟩ =
    .ok (demoWorld.fs, .exit 1) :=
  C53_no_directory _ _ rfl rfl rfl rfl rfl

/-- The second of two items is a scalar. -/
example : start { demoWorld with load := fun _ => .ok (.map [("Moduli".toList,
      .seq [node ⟨7, 1, 2, false, 1, "a".toList, 100⟩, .scalar "7".toList])]) }
    ⟨false, some "moduli.yaml".toList, some "new".toList, -1, 1⟩ = .abort := rfl

/-- Hypotheses of `C53_only`: a scalar under `Moduli` gives a run without configurations, a map is not accepted. -/
example : start { demoWorld with load := fun _ => .ok (.map [("Moduli".toList, .scalar "7".toList)]) }
      ⟨false, some "moduli.yaml".toList, some "out".toList, -1, 1⟩ = .ok (demoWorld.fs, .run []) ∧
    start { demoWorld with load := fun _ => .ok (.map [("Moduli".toList,
        .map [("a".toList, node ⟨7, 1, 2, false, 1, "a".toList, 100⟩)])]) }
      ⟨false, some "moduli.yaml".toList, some "out".toList, -1, 1⟩ = .abort := ⟨rfl, rfl⟩

/-- Hypotheses of `C53_too_large`. -/
example : (⟨7, 1, 2, false, 1, "a".toList, 100⟩ : ConfigNode).InRange ∧
    ¬ (⟨4294967311, 1, 2, false, 1, "a".toList, 100⟩ : ConfigNode).InRange := by
  unfold ConfigNode.InRange
  decide

/-- Hypotheses of `C53_workers_start`: the second of three processes has received two values. -/
example : ∃ b, Boot.Reachable (.initial 3 (.run []) ⟨false, none, none, 4, 2⟩) b ∧ b.received 1 = [0, 4] :=
  ⟨_, .step (.step (.step (.step .refl (.send _ [] 0 [4, 2] rfl rfl)) (.send _ [] 4 [2] rfl rfl))
    (.receive _ 1 0 [4] (by decide) (by decide) rfl)) (.receive _ 1 4 [] (by decide) (by decide) rfl), rfl⟩

end Main
end Hycu
