import Verif.Lemmas.Together
import Verif.Props.Live
import Verif.Props.Main

/-!
C65: several runs at the same time.
-/

namespace Hycu
namespace Live

open Run (Env Sect Input program)

variable {env : Env} {result : ConfigNode → Block → StoreMap} {ss ss₁ ss₂ : List Sect} {w w₁ w₂ : Now}

/-- C65: a run among other programs, which may change anything outside of its directories at any time, behaves as if it
were alone, whatever one takes to be the files outside of its directories. -/
theorem C65_alone (h : Among env ss w) (fs₀ : FileSystem) : ∃ w', Ongoing env ss w' ∧ w = w'.withFs w.fs ∧
    Agree ss w'.fs w.fs ∧ ∀ p, (∀ s ∈ ss, p ≠ s.cfg.resultPath) → w'.fs p = fs₀ p := by
  refine ⟨_, h.mask fs₀, (withFs_mask w).symm, fun s hs => ?_, fun p hp => ?_⟩
  · rw [mask_fs, FileSystem.mask_of (pathOf ss s hs)]
  · rw [mask_fs, mask_out]
    rintro ⟨s, hs, rfl⟩
    exact hp s hs rfl

/-- C65: it does not change anything outside of its directories. -/
theorem C65_frame (h : Among env ss w) {w' : Now} (hn : Next env ss w w') {p : List Char}
    (hp : ∀ s ∈ ss, p ≠ s.cfg.resultPath) : w'.fs p = w.fs p :=
  hn.frame h.uses p fun ⟨s, hs, he⟩ => hp s hs he.symm

theorem Sane.ok (hi : Input env ss result) (h : Sane env result ss w) : ¬ w.Fails env := by
  cases w with
  | threaded st =>
    obtain ⟨kinds, fs, hk, h1, h2⟩ := h
    rintro ⟨l, hl⟩
    obtain ⟨o, ho⟩ := Run.step_ok (Run.DataInv.reachable hi hk h1 h2) hi
      ((Run.Good.init env hk fs hi.blocks).reachable h2) l
    exact hl o ho
  | mpi st =>
    obtain ⟨kinds, fs, h0, hk, h1, h2⟩ := h
    rintro ⟨l, hl⟩
    obtain ⟨o, ho⟩ := Mpi.step_ok (Mpi.DataInv.reachable hi h0 hk h1 h2) hi ((Mpi.Inv.start hi h0 hk).reachable h2) l
    exact hl o ho

/-- C65: it does not fail. -/
theorem C65_safe (hi : Input env ss result) (h : Among env ss w) : ¬ w.Fails env := by
  have h1 := ((h.mask fun _ => none).sane hi).ok hi
  have hu := h.uses
  cases w with
  | threaded st =>
    rintro ⟨l, hl⟩
    refine h1 ⟨l, fun o ho => ?_⟩
    rw [Run.step_mask hu] at ho
    cases hs : Run.step env st l with
    | ok x => exact hl x hs
    | _ =>
      rw [hs] at ho
      cases ho
  | mpi st =>
    rintro ⟨l, hl⟩
    refine h1 ⟨l, fun o ho => ?_⟩
    rw [Mpi.step_mask hu] at ho
    cases hs : Mpi.step env st l with
    | ok x => exact hl x hs
    | _ =>
      rw [hs] at ho
      cases ho

/-- C65: when it has ended without an error, the merger gives the sum of the results of all blocks of every section. -/
theorem C65_exact (hi : Input env ss result) (h : Among env ss w) (he : w.Ended) (ht : w.todo = []) :
    ∀ s ∈ ss, Main.Merged result w.fs s := by
  intro s hs
  have h1 : Main.Merged result (w.mask (PathOf ss) fun _ => none).fs s := by
    have h2 := (h.mask fun _ => none).sane hi
    cases w with
    | threaded st =>
      obtain ⟨kinds, fs, hk, h3, h4⟩ := h2
      exact Main.merged ((Run.DataInv.reachable hi hk h3 h4).finished hi
        ((Run.Good.init env hk fs hi.blocks).reachable h4)
        (Run.all_done hk hi.blocks h4 (by rw [show (st.mask (PathOf ss) fun _ => none).pc = .finished from he]; rfl)).2.1
        he ht s hs)
    | mpi st =>
      obtain ⟨kinds, fs, h0, hk, h3, h4⟩ := h2
      exact Main.merged ((Mpi.DataInv.reachable hi h0 hk h3 h4).finished hi ((Mpi.Inv.start hi h0 hk).reachable h4) he ht
        s hs)
  obtain ⟨d, r, m, h2, h3⟩ := h1
  rw [mask_fs, FileSystem.mask_of (pathOf ss s hs)] at h2
  exact ⟨d, r, m, h2, h3⟩

/-- C65: two runs at the same time, of one or several processes, with different directories, each of which may die and be
started again any number of times: none of them fails, and whenever one of them has ended without an error, its results are
complete. -/
theorem C65_together (hi₁ : Input env ss₁ result) (hi₂ : Input env ss₂ result)
    (hd : ∀ s₁ ∈ ss₁, ∀ s₂ ∈ ss₂, s₁.cfg.resultPath ≠ s₂.cfg.resultPath) (h : Together env ss₁ ss₂ w₁ w₂) :
    ¬ w₁.Fails env ∧ ¬ w₂.Fails env ∧ (w₁.Ended → w₁.todo = [] → ∀ s ∈ ss₁, Main.Merged result w₂.fs s) ∧
      (w₂.Ended → w₂.todo = [] → ∀ s ∈ ss₂, Main.Merged result w₁.fs s) := by
  obtain ⟨h1, h2⟩ := h.among hd
  refine ⟨C65_safe hi₁ h1, C65_safe hi₂ h2, fun he ht => ?_, fun he ht => ?_⟩
  · rw [← h.same]
    exact C65_exact hi₁ h1 he ht
  · rw [h.same]
    exact C65_exact hi₂ h2 he ht

end Live

namespace Run

open Live (PathOf pathOf)

variable {env : Env} {result : ConfigNode → Block → StoreMap} {ss : List Sect} {fs : FileSystem} {kinds : List Bool}
  {σ : Nat → State} {ls : Nat → Label}

/-- C65: a run of `hycu-threaded` among other programs ends, under the conditions of C51, and its results are complete. -/
theorem C65_ends (hi : Input env ss result) (hp : Past env ss fs) (hz : ∀ s ∈ ss, Nonzero s.cfg)
    (hk : kinds.length < 4294967296) (h0 : kinds ≠ []) (h : ExecAmong env ss (initial kinds fs (program ss)) σ ls)
    (ha : ∀ n, Alert (σ n) (ls n)) (hn : Renewing σ ls) (hc : Creating ls) :
    ∃ n, (σ n).pc = .finished ∧ (σ n).todo = [] ∧ ∀ s ∈ ss, Main.Merged result (σ n).fs s := by
  obtain ⟨h1, hu⟩ := h.mask
  have h2 : Renewing (fun n => (σ n).mask (PathOf ss) fs) ls := by
    intro n
    obtain ⟨m, hm, ch, h3, h4⟩ := hn n
    refine ⟨m, hm, ch, h3, fun k f d e1 e2 e3 e4 => h4 k f d e1 e2 e3 ?_⟩
    rw [← e4]
    exact (FileSystem.mask_of ((hu m).store f e2)).symm
  obtain ⟨n, h3, h4, h5⟩ := C51_complete hi hp hz hk h0 h1 ha h2 hc
  refine ⟨n, h3, h4, fun s hs => ?_⟩
  obtain ⟨d, r, m, h6, h7⟩ := h5 s hs
  refine ⟨d, r, m, ?_, h7⟩
  rw [← h6]
  exact (FileSystem.mask_of (pathOf ss s hs)).symm

/-- C65: such executions exist, whatever the other programs do: `g n` are the files outside of the directories after `n`
steps. -/
theorem C65_exists (hi : Input env ss result) (hp : Past env ss fs) (hk : kinds.length < 4294967296)
    (g : Nat → FileSystem) (hg : g 0 = fs) : ∃ σ ls, ExecAmong env ss (initial kinds fs (program ss)) σ ls ∧
      (∀ n, Alert (σ n) (ls n)) ∧ Renewing σ ls ∧ Creating ls ∧
      ∀ n p, (∀ s ∈ ss, p ≠ s.cfg.resultPath) → (σ n).fs p = g n p := by
  obtain ⟨σ, ls, h, ha, hn, hc⟩ := C51_exists (kinds := kinds) hi hp hk
  have hu : ∀ n, Uses (PathOf ss) (σ n).todo (σ n).fileStore := by
    intro n
    induction n with
    | zero =>
      rw [h.start]
      exact Uses.program (pathOf ss)
    | succ n ih =>
      rcases h.next n with h1 | ⟨-, h1⟩
      · exact ih.step h1
      · rw [h1]
        exact ih
  refine ⟨fun n => (σ n).mask (PathOf ss) (g n), ls, ⟨?_, fun n => ?_, h.thread, h.master⟩, ha, ?_, hc, fun n p hp => ?_⟩
  · show (σ 0).mask (PathOf ss) (g 0) = _
    rw [h.start, hg]
    exact congrArg (fun f => { Run.initial kinds fs (program ss) with fs := f }) (Live.mask_self fs)
  · refine ⟨(σ (n + 1)).mask (PathOf ss) (g n), ((σ (n + 1)).mask (PathOf ss) (g (n + 1))).fs, ?_, fun s hs => ?_, rfl⟩
    · rw [step_mask (hu n)]
      rcases h.next n with h1 | ⟨h1, h2⟩
      · exact .inl (by rw [h1]; rfl)
      · exact .inr ⟨by rw [h1]; rfl, by rw [h2]⟩
    · exact (FileSystem.mask_of (pathOf ss s hs)).trans (FileSystem.mask_of (pathOf ss s hs)).symm
  · intro n
    obtain ⟨m, hm, ch, h3, h4⟩ := hn n
    refine ⟨m, hm, ch, h3, fun k f d e1 e2 e3 e4 => h4 k f d e1 e2 e3 ?_⟩
    rw [← e4]
    exact (FileSystem.mask_of ((hu m).store f e2)).symm
  · refine Live.mask_out ?_
    rintro ⟨s, hs, rfl⟩
    exact hp s hs rfl

end Run

namespace Mpi

open Run (Env Sect Input program Nonzero)
open Live (PathOf pathOf)

variable {env : Env} {result : ConfigNode → Block → StoreMap} {ss : List Sect} {fs : FileSystem} {kinds : List (List Bool)}
  {σ : Nat → State} {ls : Nat → Label}

/-- C65: the same for a run of several processes, under the conditions of C52. -/
theorem C65_ends_mpi (hi : Input env ss result) (hp : Past env ss fs) (hz : ∀ s ∈ ss, Nonzero s.cfg)
    (hk : ∀ k ∈ kinds, k.length < 4294967296) (hx : ∃ k ∈ kinds, k ≠ [])
    (h : ExecAmong env ss (initial kinds fs (program ss)) σ ls) (ha : ∀ n, Alert (σ n) (ls n)) (hn : Renewing σ ls)
    (hc : Creating ls) :
    ∃ n, (σ n).pc = .finished ∧ (σ n).todo = [] ∧ (∀ ix, 0 < ix → ix < kinds.length → ((σ n).procs ix).pc = .returned) ∧
      ∀ s ∈ ss, Main.Merged result (σ n).fs s := by
  obtain ⟨h1, hu⟩ := h.mask
  have h2 : Renewing (fun n => (σ n).mask (PathOf ss) fs) ls := by
    intro n
    obtain ⟨m, hm, ch, h3, h4⟩ := hn n
    refine ⟨m, hm, ch, h3, fun f d e1 e2 e3 e4 => h4 f d e1 e2 e3 ?_⟩
    rw [← e4]
    exact (FileSystem.mask_of ((hu m).store f e2)).symm
  have ha' : ∀ n, Alert ((σ n).mask (PathOf ss) fs) (ls n) := fun n => by
    have := ha n
    generalize ls n = l at this
    cases l <;> exact this
  obtain ⟨n, h3, h4, h5, h6⟩ := C52_complete hi hp hz hk hx h1 ha' h2 hc
  refine ⟨n, h3, h4, h5, fun s hs => ?_⟩
  obtain ⟨d, r, m, h7, h8⟩ := h6 s hs
  refine ⟨d, r, m, ?_, h8⟩
  rw [← h7]
  exact (FileSystem.mask_of (pathOf ss s hs)).symm

/-- C65: such executions exist. -/
theorem C65_exists_mpi (hi : Input env ss result) (hp : Past env ss fs) (h0 : kinds ≠ [])
    (hk : ∀ k ∈ kinds, k.length < 4294967296) (g : Nat → FileSystem) (hg : g 0 = fs) : ∃ σ ls, ExecAmong env ss (initial kinds fs (program ss)) σ ls ∧
      (∀ n, Alert (σ n) (ls n)) ∧ Renewing σ ls ∧ Creating ls ∧
      ∀ n p, (∀ s ∈ ss, p ≠ s.cfg.resultPath) → (σ n).fs p = g n p := by
  obtain ⟨σ, ls, h, ha, hn, hc⟩ := C52_exists (kinds := kinds) hi hp h0 hk
  have hu : ∀ n, Run.Uses (PathOf ss) (σ n).todo (σ n).fileStore := by
    intro n
    induction n with
    | zero =>
      rw [h.start]
      exact Run.Uses.program (pathOf ss)
    | succ n ih =>
      rcases h.next n with h1 | ⟨-, h1⟩
      · exact ih.step_mpi h1
      · rw [h1]
        exact ih
  refine ⟨fun n => (σ n).mask (PathOf ss) (g n), ls, ⟨?_, fun n => ?_, h.thread, h.worker, h.master⟩, fun n => ?_, ?_, hc, fun n p hp => ?_⟩
  · show (σ 0).mask (PathOf ss) (g 0) = _
    rw [h.start, hg]
    exact congrArg (fun f => { Mpi.initial kinds fs (program ss) with fs := f }) (Live.mask_self fs)
  · refine ⟨(σ (n + 1)).mask (PathOf ss) (g n), ((σ (n + 1)).mask (PathOf ss) (g (n + 1))).fs, ?_, fun s hs => ?_, rfl⟩
    · rw [step_mask (hu n)]
      rcases h.next n with h1 | ⟨h1, h2⟩
      · exact .inl (by rw [h1]; rfl)
      · exact .inr ⟨by rw [h1]; rfl, by rw [h2]⟩
    · exact (FileSystem.mask_of (pathOf ss s hs)).trans (FileSystem.mask_of (pathOf ss s hs)).symm
  · have := ha n
    generalize ls n = l at this
    cases l <;> exact this
  · intro n
    obtain ⟨m, hm, ch, h3, h4⟩ := hn n
    refine ⟨m, hm, ch, h3, fun f d e1 e2 e3 e4 => h4 f d e1 e2 e3 ?_⟩
    rw [← e4]
    exact (FileSystem.mask_of ((hu m).store f e2)).symm
  · refine Live.mask_out ?_
    rintro ⟨s, hs, rfl⟩
    exact hp s hs rfl

end Mpi

/-! ### Two runs in the same directory -/

namespace Live

open Run (Env Sect Input program onceEnv onceSect onceResult onceLabels onceEnd once_input threadSteps mainSteps
  exec_reachable)

/-- Make steps of two runs. -/
def pair (env : Env) (a b : Run.State) : List (Bool × Run.Label) → Option (Run.State × Run.State)
  | [] => some (a, b)
  | (true, l) :: ls =>
    match Run.step env a l with
    | .ok (some a') => pair env a' { b with fs := a'.fs } ls
    | _ => none
  | (false, l) :: ls =>
    match Run.step env b l with
    | .ok (some b') => pair env { a with fs := b'.fs } b' ls
    | _ => none

theorem Together.pair {env : Env} {ss₁ ss₂ : List Sect} : ∀ (ls : List (Bool × Run.Label)) {a b a' b' : Run.State},
    Together env ss₁ ss₂ (.threaded a) (.threaded b) → Live.pair env a b ls = some (a', b') →
    Together env ss₁ ss₂ (.threaded a') (.threaded b')
  | [], _, _, _, _, h, hp => by
    cases hp
    exact h
  | (true, l) :: ls, a, b, a', b', h, hp => by
    unfold Live.pair at hp
    split at hp
    · rename_i a₁ hs
      exact Together.pair ls (.left h (.threaded l hs)) hp
    · cases hp
  | (false, l) :: ls, a, b, a', b', h, hp => by
    unfold Live.pair at hp
    split at hp
    · rename_i b₁ hs
      exact Together.pair ls (.right h (.threaded l hs)) hp
    · cases hp

/-- Steps of the first run. -/
def first (ls : List Run.Label) : List (Bool × Run.Label) := ls.map fun l => (true, l)

/-- Steps of the second run. -/
def second (ls : List Run.Label) : List (Bool × Run.Label) := ls.map fun l => (false, l)

theorem Together.begin (env : Env) (ss₁ ss₂ : List Sect) : Together env ss₁ ss₂
    (.threaded (Run.initial [false] (fun _ => none) (program ss₁)))
    (.threaded (Run.initial [false] (fun _ => none) (program ss₂))) :=
  .start (fs := fun _ => none) (by intro s hs d hd; cases hd) (by intro s hs d hd; cases hd) (.threaded [false] (by decide))
    (.threaded [false] (by decide))

/-- The section of the example with another directory. -/
def otherSect : Sect := ⟨⟨7, 1, 2, false, 1, "other".toList, 100⟩, [[(0, 10)]]⟩

/-- Hypotheses of `C65_together`: two runs with the directories `out` and `other`, of which the second ends while the first
is about to write its files. -/
example : ∃ st₁ st₂, Together onceEnv [onceSect] [otherSect] (.threaded st₁) (.threaded st₂) ∧ st₂.pc = .finished ∧
    st₂.todo = [] ∧ (∃ ws, st₁.pc = .write ws .exit) ∧ st₂.fs "out".toList = some [] ∧
    (st₁.fs "other".toList).map (fun d => d.map Prod.fst) = some ["8.hycu_store".toList, "8.hycu_record".toList] := by
  refine ⟨_, _, Together.pair (first (onceLabels 5) ++ second (onceLabels 8 ++ onceEnd)) (.begin _ _ _) rfl, rfl, rfl,
    ⟨_, rfl⟩, rfl, rfl⟩

/-- Hypotheses of `C65_ends` and `C65_exists`: another program changes a file again and again. -/
example : ∃ (σ : ℕ → Run.State) (n : ℕ), (σ n).pc = .finished ∧ Main.Merged onceResult (σ n).fs onceSect ∧
    ∀ m, (σ m).fs "other".toList = if m = 0 then none else some [(showNat m, .file [])] := by
  have hp : Run.Past onceEnv [onceSect] (fun _ => none) := .start _ (by intro s hs d hd; cases hd)
  have hz : ∀ s ∈ [onceSect], Run.Nonzero s.cfg := by
    intro s hs
    rw [List.mem_singleton.1 hs]
    constructor <;> decide
  obtain ⟨σ, ls, h1, h2, h3, h4, h5⟩ := Run.C65_exists (kinds := [false]) once_input hp (by decide)
    (fun m _ => if m = 0 then none else some [(showNat m, .file [])]) rfl
  obtain ⟨n, h6, _, h7⟩ := Run.C65_ends once_input hp hz (by decide) (by decide) h1 h2 h3 h4
  exact ⟨σ, n, h6, h7 _ List.mem_cons_self, fun m => h5 m _ (by decide)⟩

/-- The same for three processes, of which the last has no thread. -/
example : ∃ (σ : ℕ → Mpi.State) (n : ℕ), (σ n).pc = .finished ∧ Main.Merged onceResult (σ n).fs onceSect ∧
    ∀ m, (σ m).fs "other".toList = if m = 0 then none else some [(showNat m, .file [])] := by
  have hp : Mpi.Past onceEnv [onceSect] (fun _ => none) := .start _ (by intro s hs d hd; cases hd)
  have hz : ∀ s ∈ [onceSect], Run.Nonzero s.cfg := by
    intro s hs
    rw [List.mem_singleton.1 hs]
    constructor <;> decide
  obtain ⟨σ, ls, h1, h2, h3, h4, h5⟩ := Mpi.C65_exists_mpi (kinds := [[true], [false], []]) once_input hp (by decide)
    (by decide) (fun m _ => if m = 0 then none else some [(showNat m, .file [])]) rfl
  obtain ⟨n, h6, _, _, h7⟩ := Mpi.C65_ends_mpi once_input hp hz (by decide) ⟨_, List.mem_cons_self, by decide⟩ h1 h2 h3 h4
  exact ⟨σ, n, h6, h7 _ List.mem_cons_self, fun m => h5 m _ (by decide)⟩

/-- The directory after the two runs in `C65_false`. -/
def doubled : Dir := FileStore.save (FileStore.save [] 8 (Record.print [[(0, 10)]], Store.print (onceResult onceSect.cfg [])))
  5 (Record.print [[(0, 10)]], Store.print (onceResult onceSect.cfg []))

/-- C65 does not hold for two runs with the same directory: if the second one is started before the first one has saved its
results, all blocks are counted twice, though both runs end without an error. -/
theorem C65_false : ∃ (env : Env) (ss : List Sect) (result : ConfigNode → Block → StoreMap) (w₁ w₂ : Now) (s : Sect) (d : Dir),
    Input env ss result ∧ Together env ss ss w₁ w₂ ∧ w₁.Ended ∧ w₁.todo = [] ∧ w₂.Ended ∧ w₂.todo = [] ∧ s ∈ ss ∧
    w₁.fs s.cfg.resultPath = some d ∧
    Merger.merge d = .ok ⟨0, some ("1,1,2;0,5:24\n".toList, "\n0 10 \n".toList)⟩ ∧
    Tally [(⟨[1, 1, 2], [0, 5]⟩, 12)] (s.blocks.flatMap (result s.cfg)) := by
  refine ⟨onceEnv, [onceSect], onceResult, _, _, onceSect, doubled, once_input,
    Together.pair (first (onceLabels 5) ++ second (onceLabels 8 ++ onceEnd) ++ first onceEnd) (.begin _ _ _) rfl, rfl, rfl,
    rfl, rfl, List.mem_singleton_self _, rfl, by decide, Tally.self (List.pairwise_singleton _ _)⟩

/-- A section with two blocks. -/
def twiceSect : Sect := ⟨⟨7, 1, 2, false, 1, "out".toList, 100⟩, [[(0, 10)], [(10, 20)]]⟩

theorem twice_total (k : Key) : total (twiceSect.blocks.flatMap (onceResult twiceSect.cfg)) k =
    if k = ⟨[1, 1, 2], [0, 5]⟩ then 24 else 0 := by
  show total [(⟨[1, 1, 2], [0, 5]⟩, 12), (⟨[1, 1, 2], [0, 5]⟩, 12)] k = _
  by_cases hk : (⟨[1, 1, 2], [0, 5]⟩ : Key) = k
  · subst hk
    rfl
  · rw [if_neg fun h => hk h.symm]
    simp [total, hk]

theorem twice_input : Input onceEnv [twiceSect] onceResult where
  paths := List.nodup_singleton _
  blocks := by decide
  nonempty := by decide
  fit := by decide
  compute := fun _ _ _ _ => rfl
  keys := by
    intro s _ b _ e he
    rw [List.mem_singleton.1 he]
    exact ⟨by simp, by simp, by decide, by decide⟩
  counts := by
    intro s _ b _ e he
    rw [List.mem_singleton.1 he]
    decide
  small := by
    intro s hs k
    rw [List.mem_singleton.1 hs, twice_total]
    unfold Small
    split <;> decide

/-- The first run computes the first block and is about to save it. -/
def twiceFirst : List Run.Label := threadSteps 0 2 ++ mainSteps 12 ++ threadSteps 0 4 ++ [.master ⟨true, true, 5⟩] ++ mainSteps 1

/-- The second run computes both blocks and is about to save them, under the same name. -/
def twiceSecond : List Run.Label := threadSteps 0 2 ++ mainSteps 12 ++ threadSteps 0 4 ++ mainSteps 7 ++ threadSteps 0 4 ++
  mainSteps 3

/-- The first run computes the second block. -/
def twiceRest : List Run.Label := mainSteps 8 ++ threadSteps 0 4 ++ mainSteps 2 ++ [.master ⟨false, true, 6⟩]

/-- Also without counting blocks twice in the records: two runs that save results at the same moment may take the same name,
and then the record of one of them remains with the store of the other. -/
theorem C65_mixed : ∃ (env : Env) (ss : List Sect) (result : ConfigNode → Block → StoreMap) (w₁ w₂ : Now) (s : Sect) (d : Dir),
    Input env ss result ∧ Together env ss ss w₁ w₂ ∧ w₁.Ended ∧ w₁.todo = [] ∧ w₂.Ended ∧ w₂.todo = [] ∧ s ∈ ss ∧
    w₁.fs s.cfg.resultPath = some d ∧
    d = [(FileStore.storeName 5, .file "1,1,2;0,5:24\n".toList), (FileStore.recordName 5, .file "0 10 \n".toList),
      (FileStore.storeName 6, .file "1,1,2;0,5:12\n".toList), (FileStore.recordName 6, .file "10 20 \n".toList)] ∧
    Merger.merge d = .ok ⟨0, some ("1,1,2;0,5:36\n".toList, "\n0 10 \n10 20 \n".toList)⟩ ∧
    Tally [(⟨[1, 1, 2], [0, 5]⟩, 24)] (s.blocks.flatMap (result s.cfg)) := by
  refine ⟨onceEnv, [twiceSect], onceResult, _, _, twiceSect, _, twice_input,
    Together.pair (first twiceFirst ++ second twiceSecond ++ first (mainSteps 1) ++ second onceEnd ++ first twiceRest ++
      first onceEnd) (.begin _ _ _) rfl, rfl, rfl,
    rfl, rfl, List.mem_singleton_self _, rfl, by decide, by decide, ?_⟩
  refine ⟨List.pairwise_singleton _ _, fun k z => ?_⟩
  rw [twice_total, List.mem_singleton, Prod.mk.injEq]
  have h1 : k ∈ (twiceSect.blocks.flatMap (onceResult twiceSect.cfg)).map Prod.fst ↔ k = ⟨[1, 1, 2], [0, 5]⟩ := by
    show k ∈ [_, _] ↔ _
    simp
  rw [h1]
  constructor
  · rintro ⟨rfl, rfl⟩
    exact ⟨rfl, rfl⟩
  · rintro ⟨rfl, h⟩
    exact ⟨rfl, h⟩

end Live
end Hycu
