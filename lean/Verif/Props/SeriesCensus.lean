import Verif.Lemmas.MarkedBlocks
import Verif.Props.DamageCensus
import Verif.Props.Related
import Verif.Props.Results
import Verif.Props.Series

/-!
C75: the numbers of curves after runs with different configurations for the same directory.
-/

namespace Hycu

open Run (Sect Untouched)
open Series

variable {w : Flint} {fs₀ fs : FileSystem}

/-- The tables and the numbers of curves do not depend on the package size. -/
def Flint.Setting.repack {c : ConfigNode} (t : w.Setting c) (package : Nat) : w.Setting { c with packageSize := package } where
  field := t.field
  fintype := t.fintype
  decEq := t.decEq
  rep := t.rep
  gen := t.gen
  table := t.table
  E := t.E
  g := t.g
  rt := t.rt
  odd := t.odd
  made := t.made
  built := t.built
  flint := t.flint
  madeExt := t.madeExt
  builtExt := t.builtExt

theorem Flint.Setting.count_repack {c : ConfigNode} (t : w.Setting c) (package : Nat) (k : Key) :
    (t.repack package).count k = t.count k := rfl

theorem Flint.Work.tasks {ss : List Sect} (hj : w.Work ss) : Run.Tasks w.env ss w.resultOf :=
  Flint.tasks (fun s hs => ⟨(hj.setting s hs).some, (hj.setting s hs).some.count_small
    (hj.feasible s hs).genus_pos (hj.small s hs)⟩) hj.feasible hj.blocks

theorem Flint.Job.input {ss : List Sect} (hj : w.Job ss) : Run.Input w.env ss w.resultOf :=
  Flint.input (fun s hs => ⟨(hj.setting s hs).some, (hj.setting s hs).some.count_small
    (hj.feasible s hs).genus_pos (hj.small s hs)⟩) hj.feasible hj.paths hj.blocks

/-- Some number does not vanish. -/
theorem Flint.Setting.exists_count {c : ConfigNode} (t : w.Setting c) (hg : 0 < c.genus) : ∃ k, 0 < t.count k := by
  let _ := t.field
  let _ := t.fintype
  let _ := t.decEq
  obtain ⟨_, _, h1, _⟩ := t.built.facts
  have h2 := polynomials_pos t
  rw [← h1, ← card_wanted hg c.withMarkedPoint] at h2
  obtain ⟨⟨f, hf⟩⟩ := (Nat.card_pos_iff.1 h2).1
  obtain ⟨k, hk⟩ := IsKey.exists t.E c.countExponent f
  have := (wanted_finite t.E c.countExponent c.genus c.withMarkedPoint k).1
  exact ⟨k, Nat.card_pos_iff.2 ⟨⟨⟨f, hf, hk⟩⟩, this⟩⟩

section

variable {ss₁ ss₂ : List Sect} {s₁ s₂ : Sect} {u : List (List Sect × Bool)}

theorem mem_uses {p : List Char} {s : Sect} {c : Bool} (h : (s, c) ∈ uses p u) :
    ∃ x ∈ u, s ∈ x.1 ∧ s.cfg.resultPath = p := by
  obtain ⟨x, hx, hv⟩ := List.mem_flatMap.1 h
  obtain ⟨t, ht, he⟩ := List.mem_map.1 hv
  obtain ⟨rfl, -⟩ := Prod.mk.inj he
  exact ⟨x, hx, (List.mem_filter.1 ht).1, of_decide_eq_true (List.mem_filter.1 ht).2⟩

/-- C76: if two sections for the same directory differ only by the number of extensions over which points are counted,
nothing is computed for the second, and the merger gives the results of the first. -/
theorem C76_exponent (h : After w.env fs₀ u fs) (hw : ∀ x ∈ u, w.Work x.1) (h0 : ∀ x ∈ u, Untouched x.1 fs₀)
    {p : List Char} (hu : uses p u = [(s₁, true), (s₂, true)]) (t : w.Setting s₁.cfg)
    (hc : ∃ n, s₂.cfg = { s₁.cfg with countExponent := n }) : ∃ d r m, fs p = some d ∧
      Merger.merge d = .ok ⟨0, some (Store.print m, Record.print r)⟩ ∧ OMap.Sorted m ∧
      ∀ k z, (k, z) ∈ m ↔ 0 < z ∧ z = t.count k := by
  obtain ⟨x₁, hx₁, m₁, -⟩ := mem_uses (u := u) (p := p) (s := s₁) (c := true) (by rw [hu]; simp)
  obtain ⟨x₂, hx₂, m₂, -⟩ := mem_uses (u := u) (p := p) (s := s₂) (c := true) (by rw [hu]; simp)
  have j₁ := hw x₁ hx₁
  have j₂ := hw x₂ hx₂
  obtain ⟨n, hc⟩ := hc
  have hb : s₂.blocks = s₁.blocks := by
    have h1 := j₂.blocks s₂ m₂
    rw [hc] at h1
    exact h1.unique (j₁.blocks s₁ m₁)
  obtain ⟨d, r, m, h1, h2, h3, -⟩ := C76_two h (fun x hx => (hw x hx).tasks) h0 hu
  refine ⟨d, r, m, h1, h2, t.tally (j₁.feasible s₁ m₁)
    (t.count_small (j₁.feasible s₁ m₁).genus_pos (j₁.small s₁ m₁)) (j₁.blocks s₁ m₁) ?_⟩
  rw [List.filter_eq_nil_iff.2 fun b h => by simpa using hb ▸ h, List.flatMap_nil, List.append_nil] at h3
  exact h3

/-- C75: if the second configuration differs from the first only by the number of extensions over which points are
counted, the second complete run computes nothing, and the merger gives the results of the first. -/
theorem C75_exponent (h : After w.env fs₀ [(ss₁, true), (ss₂, true)] fs) (j₁ : w.Job ss₁) (j₂ : w.Job ss₂)
    (u₁ : Untouched ss₁ fs₀) (u₂ : Untouched ss₂ fs₀) (m₁ : s₁ ∈ ss₁) (m₂ : s₂ ∈ ss₂) (t : w.Setting s₁.cfg)
    (hc : ∃ n, s₂.cfg = { s₁.cfg with countExponent := n }) : ∃ d r m, fs s₁.cfg.resultPath = some d ∧
      Merger.merge d = .ok ⟨0, some (Store.print m, Record.print r)⟩ ∧ OMap.Sorted m ∧
      ∀ k z, (k, z) ∈ m ↔ 0 < z ∧ z = t.count k := by
  have hp : s₁.cfg.resultPath = s₂.cfg.resultPath := by
    obtain ⟨n, hc⟩ := hc
    rw [hc]
  refine C76_exponent h (by simpa using ⟨j₁.toWork, j₂.toWork⟩) (by simpa using ⟨u₁, u₂⟩) ?_ t hc
  rw [hp]
  exact two_runs j₁.input j₂.input m₁ m₂ hp

/-- C76: two sections for the same directory that differ only by the marked point, in any order.  The merger gives the
right results for curves without marked point. -/
theorem C76_marked {c : ConfigNode} {marked : Bool} (h : After w.env fs₀ u fs) (hw : ∀ x ∈ u, w.Work x.1)
    (h0 : ∀ x ∈ u, Untouched x.1 fs₀) {p : List Char} (hu : uses p u = [(s₁, true), (s₂, true)])
    (h₁ : s₁.cfg = { c with withMarkedPoint := marked }) (h₂ : s₂.cfg = { c with withMarkedPoint := !marked })
    (t : w.Setting { c with withMarkedPoint := false }) : ∃ d r m, fs p = some d ∧
      Merger.merge d = .ok ⟨0, some (Store.print m, Record.print r)⟩ ∧ OMap.Sorted m ∧
      ∀ k z, (k, z) ∈ m ↔ 0 < z ∧ z = t.count k := by
  obtain ⟨x₁, hx₁, m₁, -⟩ := mem_uses (u := u) (p := p) (s := s₁) (c := true) (by rw [hu]; simp)
  obtain ⟨x₂, hx₂, m₂, -⟩ := mem_uses (u := u) (p := p) (s := s₂) (c := true) (by rw [hu]; simp)
  have j₁ := hw x₁ hx₁
  have j₂ := hw x₂ hx₂
  obtain ⟨d, r, m, a1, a2, a3, -⟩ := C76_two h (fun x hx => (hw x hx).tasks) h0 hu
  have b₁ := j₁.blocks s₁ m₁
  have b₂ := j₂.blocks s₂ m₂
  have f₁ := j₁.feasible s₁ m₁
  have f₂ := j₂.feasible s₂ m₂
  have n₁ := j₁.small s₁ m₁
  have n₂ := j₂.small s₂ m₂
  have e₁ : w.resultOf s₁.cfg = w.resultOf { c with withMarkedPoint := false } := by rw [h₁]; rfl
  have e₂ : w.resultOf s₂.cfg = w.resultOf { c with withMarkedPoint := false } := by rw [h₂]; rfl
  rw [e₁, e₂, ← List.flatMap_append] at a3
  rw [h₁] at b₁ f₁ n₁
  rw [h₂] at b₂ f₂ n₂
  refine ⟨d, r, m, a1, a2, ?_⟩
  cases marked with
  | true =>
    have hpre : s₁.blocks <+: s₂.blocks := Flint.blocks_marked f₁.genus_lt b₁ b₂
    refine t.tally f₂ (t.count_small f₂.genus_pos n₂) b₂ (Tally.perm a3 (List.Perm.flatMap_right _ ?_))
    have hn₁ := j₁.tasks.blocks s₁ m₁
    have hn₂ := j₂.tasks.blocks s₂ m₂
    refine (List.perm_ext_iff_of_nodup ?_ hn₂).2 fun b => ?_
    · refine List.nodup_append.2 ⟨hn₁, hn₂.filter _, fun a ha b hb hab => ?_⟩
      exact absurd (hab ▸ ha) (of_decide_eq_true (List.mem_filter.1 hb).2)
    · rw [List.mem_append, List.mem_filter, decide_eq_true_eq]
      have := hpre.subset (a := b)
      tauto
  | false =>
    have hpre : s₂.blocks <+: s₁.blocks := Flint.blocks_marked f₁.genus_lt b₂ b₁
    rw [List.filter_eq_nil_iff.2 fun b hb => by simpa using hpre.subset hb, List.append_nil] at a3
    exact t.tally f₁ (t.count_small f₁.genus_pos n₁) b₁ a3
/-- C75: first with a marked point, then without, otherwise the same configuration.  The blocks that were computed by the
first run need not be computed again, and the merger gives the right results for curves without marked point.  In the
other order, the second run computes nothing, and the results are those for curves without marked point, too. -/
theorem C75_marked {c : ConfigNode} {marked : Bool} (h : After w.env fs₀ [(ss₁, true), (ss₂, true)] fs) (j₁ : w.Job ss₁)
    (j₂ : w.Job ss₂) (u₁ : Untouched ss₁ fs₀) (u₂ : Untouched ss₂ fs₀) (m₁ : s₁ ∈ ss₁) (m₂ : s₂ ∈ ss₂)
    (h₁ : s₁.cfg = { c with withMarkedPoint := marked }) (h₂ : s₂.cfg = { c with withMarkedPoint := !marked })
    (t : w.Setting { c with withMarkedPoint := false }) : ∃ d r m, fs c.resultPath = some d ∧
      Merger.merge d = .ok ⟨0, some (Store.print m, Record.print r)⟩ ∧ OMap.Sorted m ∧
      ∀ k z, (k, z) ∈ m ↔ 0 < z ∧ z = t.count k := by
  have hp : s₁.cfg.resultPath = s₂.cfg.resultPath := by rw [h₁, h₂]
  have hr : c.resultPath = s₂.cfg.resultPath := by rw [h₂]
  refine C76_marked h (by simpa using ⟨j₁.toWork, j₂.toWork⟩) (by simpa using ⟨u₁, u₂⟩) ?_ h₁ h₂ t
  rw [hr]
  exact two_runs j₁.input j₂.input m₁ m₂ hp

end

/-- C75: any number of runs with configurations that differ only by the package size, and that may have several sections
for the directory.  If one of them was complete, the
merger gives every ramification type and all Hasse-Weil offsets that occur, and the number of polynomials is at least
the right one, and at most its product with the number of runs, or of their sections for the directory. -/
theorem C75_package {u : List (List Sect × Bool)} {c : ConfigNode} (h : After w.env fs₀ u fs) (hj : ∀ x ∈ u, w.Work x.1)
    (h0 : ∀ x ∈ u, Untouched x.1 fs₀) (t : w.Setting c)
    (hc : ∀ x ∈ u, ∀ s ∈ x.1, s.cfg.resultPath = c.resultPath → ∃ package, s.cfg = { c with packageSize := package })
    (hd : ∃ s, (s, true) ∈ uses c.resultPath u) : ∃ d r m, fs c.resultPath = some d ∧
      Merger.merge d = .ok ⟨0, some (Store.print m, Record.print r)⟩ ∧
      (∀ k, (t.count k : Int) ≤ total m k ∧ total m k ≤ (uses c.resultPath u).length * (t.count k : Int)) ∧
      ∀ k, k ∈ m.map Prod.fst ↔ 0 < t.count k := by
  obtain ⟨s, hs⟩ := hd
  have huse : ∀ v ∈ uses c.resultPath u, ∃ x ∈ u, v.1 ∈ x.1 ∧ v.1.cfg.resultPath = c.resultPath := by
    intro v hv
    obtain ⟨x, hx, hv⟩ := List.mem_flatMap.1 hv
    obtain ⟨s, hs, rfl⟩ := List.mem_map.1 hv
    exact ⟨x, hx, (List.mem_filter.1 hs).1, of_decide_eq_true (List.mem_filter.1 hs).2⟩
  have key : ∀ v ∈ uses c.resultPath u, (∀ b, w.resultOf v.1.cfg b = w.resultOf c b) ∧ v.1.blocks.Nodup ∧ (∀ b ∈ v.1.blocks, b ≠ []) ∧
      (∀ b ∈ v.1.blocks, ∀ e ∈ w.resultOf c b, 0 < e.2) ∧ ∀ k, total (v.1.blocks.flatMap (w.resultOf c)) k = t.count k := by
    intro v hv
    obtain ⟨x, hx, h1, h2⟩ := huse v hv
    obtain ⟨pk, h3⟩ := hc x hx v.1 h1 h2
    have hf := (hj x hx).feasible _ h1
    have hsm := (hj x hx).small _ h1
    have hb := (hj x hx).blocks _ h1
    rw [h3] at hf hsm hb
    obtain ⟨h4, h5, h6⟩ := (t.repack pk).totals hf ((t.repack pk).count_small hf.genus_pos hsm) hb
    exact ⟨fun b => by rw [h3]; rfl, h4, fun b hb => (h5 b hb).1, fun b hb e he => ((h5 b hb).2.2.2 e he).1, h6⟩
  obtain ⟨x, hx, hsx, hsp⟩ := huse _ hs
  obtain ⟨l, h1, h2, h3⟩ := C75_series h (fun x hx => (hj x hx).tasks) h0 x hx s hsx
  dsimp only at hsp
  rw [hsp] at h1 h2 h3
  obtain ⟨k1, k2, k3, k4, k5⟩ := key _ hs
  have hall := h1.complete hs
  have hne : l ≠ [] := by
    rintro rfl
    obtain ⟨pk, h7⟩ := hc x hx s hsx hsp
    obtain ⟨k, hk⟩ := t.exists_count (by have := ((hj x hx).feasible s hsx).genus_pos; rw [h7] at this; exact this)
    have h8 : s.blocks = [] := List.eq_nil_iff_forall_not_mem.2 fun b hb => List.not_mem_nil (hall b hb)
    have h9 := k5 k
    dsimp only at h9
    rw [h8] at h9
    simp [total] at h9
    omega
  obtain ⟨d, hd⟩ := h2 hne
  obtain ⟨r, m, h4, h5, h6⟩ := h3 d hd
  have heq : l.flatMap (fun x => w.resultOf x.1 x.2) = (l.map Prod.snd).flatMap (w.resultOf c) := by
    rw [List.flatMap_map]
    refine List.flatMap_congr fun y hy => ?_
    obtain ⟨v, hv, h7, -⟩ := h1.mem y hy
    rw [← h7]
    exact (key v hv).1 _
  have hmem : ∀ b ∈ l.map Prod.snd, ∃ v ∈ uses c.resultPath u, b ∈ v.1.blocks := by
    intro b hb
    obtain ⟨y, hy, rfl⟩ := List.mem_map.1 hb
    obtain ⟨v, hv, -, h7⟩ := h1.mem y hy
    exact ⟨v, hv, h7⟩
  have hup : ∀ k, total m k ≤ (uses c.resultPath u).length * (t.count k : Int) := by
    intro k
    rw [h5.total_eq k]
    exact h1.total_le (f := w.resultOf c) (fun v hv b _ => (key v hv).1 b)
      (fun v hv b hb e he => ((key v hv).2.2.2.1 b hb e he).le) fun v hv => ((key v hv).2.2.2.2 k).le
  have hlow : ∀ k, (t.count k : Int) ≤ total m k := by
    intro k
    rw [h5.total_eq k, heq, ← k5 k]
    refine Run.total_le hall k2 (fun b hb e he => ?_) k
    obtain ⟨v, hv, h7⟩ := hmem b hb
    exact ((key v hv).2.2.2.1 b h7 e he).le
  refine ⟨d, r, m, hd, h4, fun k => ⟨hlow k, hup k⟩, fun k => ?_⟩
  rw [h5.mem_keys k, heq]
  constructor
  · intro hk
    have hpos : 0 < total ((l.map Prod.snd).flatMap (w.resultOf c)) k := by
      refine total_pos (fun e he => ?_) hk
      obtain ⟨b, hb, he⟩ := List.mem_flatMap.1 he
      obtain ⟨v, hv, h7⟩ := hmem b hb
      exact (key v hv).2.2.2.1 b h7 e he
    rw [← heq, ← h5.total_eq k] at hpos
    rcases Nat.eq_zero_or_pos (t.count k) with h8 | h8
    · have := hup k
      rw [h8] at this
      simp at this
      omega
    · exact h8
  · intro hk
    by_contra h8
    have h9 : total ((l.map Prod.snd).flatMap (w.resultOf c)) k = 0 := by
      unfold total
      rw [List.filter_eq_nil_iff.2]
      · rfl
      · intro e he hk
        exact h8 (List.mem_map.2 ⟨e, he, by simpa using hk⟩)
    rw [← heq, ← h5.total_eq k] at h9
    have := hlow k
    omega

/-- The blocks for curves of genus 1 over the field of 3 elements. -/
def threeBlocks (package : Nat) : List Block :=
  match CurveIterator.make tableThree 1 false package with
  | .ok it => match CurveIterator.visits CurveIterator.asBlock 500 it with
    | .ok boxes => boxes
    | _ => []
  | _ => []

theorem make_three {F : Type} {table : FqElementTable F} (h1 : table.prime = 3) (h2 : table.primeExponent = 1)
    (h3 : table.primePower = 3) (h4 : table.primePowerPred = 2) (package : Nat) :
    CurveIterator.make table 1 false package = CurveIterator.make tableThree 1 false package := by
  obtain ⟨p, r, q, q', es⟩ := table
  cases h1
  cases h2
  cases h3
  cases h4
  rfl

theorem three_blocks {n package : Nat} {path : List Char} (t : w.Setting (threeNode false n path package)) {boxes : List Block}
    (h : Terminates (w.blocks (threeNode false n path package)) boxes)
    (hv : (match CurveIterator.make tableThree 1 false package with
      | .ok it => (match CurveIterator.visits CurveIterator.asBlock 500 it with
        | .ok _ => true
        | _ => false)
      | _ => false) = true) : boxes = threeBlocks package := by
  let _ := t.field
  let _ := t.fintype
  let _ := t.decEq
  obtain ⟨_, _, h1, _, h2, h3, h4, h5, _⟩ := t.built.facts
  have h6 := make_three h2 h3 (h4.trans h1) (h5.trans (by rw [h1]; rfl)) package
  have h7 : ∀ k, w.blocks (threeNode false n path package) k = (do
      let it ← CurveIterator.make tableThree 1 false package
      CurveIterator.visits CurveIterator.asBlock k it) := by
    intro k
    rw [← h6]
    show (do
      let table ← w.fqTable 3 1
      let it ← CurveIterator.make table 1 false package
      CurveIterator.visits CurveIterator.asBlock k it) = _
    have h8 : w.fqTable 3 1 = .ok t.table := t.made
    rw [h8]
    rfl
  unfold threeBlocks
  cases h9 : CurveIterator.make tableThree 1 false package with
  | ok it =>
    rw [h9] at hv
    dsimp only at hv ⊢
    cases h10 : CurveIterator.visits CurveIterator.asBlock 500 it with
    | ok bs =>
      refine h.unique ⟨500, fun k hk => ?_⟩
      rw [h7, h9]
      exact CurveIterator.visits_mono hk h10
    | _ =>
      rw [h10] at hv
      cases hv
  | _ =>
    rw [h9] at hv
    cases hv

/-- C76: two sections for curves of genus 1 over the field of 3 elements and the same directory.  If the package sizes are
1 and 9, the program computes everything twice, and all numbers are twice the right ones. -/
theorem C76_doubled {n : Nat} {path : List Char} {u : List (List Sect × Bool)} {b₁ b₂ : List Block}
    (h : After w.env fs₀ u fs) (hw : ∀ x ∈ u, w.Work x.1) (h0 : ∀ x ∈ u, Untouched x.1 fs₀)
    (hu : uses path u = [(⟨threeNode false n path 1, b₁⟩, true), (⟨threeNode false n path 9, b₂⟩, true)])
    (t : w.Setting (threeNode false n path 1)) : ∃ d r m, fs path = some d ∧
      Merger.merge d = .ok ⟨0, some (Store.print m, Record.print r)⟩ ∧
      ∀ k z, (k, z) ∈ m ↔ 0 < z ∧ z = 2 * t.count k := by
  obtain ⟨x₁, hx₁, m₁, -⟩ := mem_uses (u := u) (p := path) (s := ⟨threeNode false n path 1, b₁⟩) (c := true)
    (by rw [hu]; simp)
  obtain ⟨x₂, hx₂, m₂, -⟩ := mem_uses (u := u) (p := path) (s := ⟨threeNode false n path 9, b₂⟩) (c := true)
    (by rw [hu]; simp)
  have j₁ := hw x₁ hx₁
  have j₂ := hw x₂ hx₂
  obtain ⟨d, r, m, h1, h2, h3, -⟩ := C76_two h (fun x hx => (hw x hx).tasks) h0 hu
  have e₁ : b₁ = threeBlocks 1 := three_blocks t (j₁.blocks _ m₁) (by decide +kernel)
  have e₂ : b₂ = threeBlocks 9 := three_blocks (t.repack 9) (j₂.blocks _ m₂) (by decide +kernel)
  have hdis : ∀ b ∈ b₂, b ∉ b₁ := by
    rw [e₁, e₂]
    decide +kernel
  dsimp only at h3
  rw [List.filter_eq_self.2 fun b hb => by simpa using hdis b hb] at h3
  obtain ⟨-, p₁, t₁⟩ := t.totals (j₁.feasible _ m₁) (t.count_small Nat.one_pos (j₁.small _ m₁)) (j₁.blocks _ m₁)
  obtain ⟨-, p₂, t₂⟩ := (t.repack 9).totals (j₂.feasible _ m₂) ((t.repack 9).count_small Nat.one_pos (j₂.small _ m₂))
    (j₂.blocks _ m₂)
  refine ⟨d, r, m, h1, h2, fun k z => ?_⟩
  have hpos : ∀ e ∈ b₁.flatMap (w.resultOf (threeNode false n path 1)) ++ b₂.flatMap (w.resultOf (threeNode false n path 9)),
      0 < e.2 := by
    intro e he
    rcases List.mem_append.1 he with he | he
    · obtain ⟨b, hb, he⟩ := List.mem_flatMap.1 he
      exact ((p₁ b hb).2.2.2 e he).1
    · obtain ⟨b, hb, he⟩ := List.mem_flatMap.1 he
      exact ((p₂ b hb).2.2.2 e he).1
  have htot : total (b₁.flatMap (w.resultOf (threeNode false n path 1)) ++
      b₂.flatMap (w.resultOf (threeNode false n path 9))) k = 2 * t.count k := by
    rw [total_append, t₁ k]
    have h4 : total (b₂.flatMap (w.resultOf (threeNode false n path 9))) k = t.count k := t₂ k
    rw [h4]
    omega
  rw [h3.entry k z, htot]
  constructor
  · rintro ⟨h4, rfl⟩
    refine ⟨?_, rfl⟩
    rw [← htot]
    exact total_pos hpos h4
  · rintro ⟨h4, rfl⟩
    refine ⟨?_, rfl⟩
    by_contra h5
    have h6 : total (b₁.flatMap (w.resultOf (threeNode false n path 1)) ++
      b₂.flatMap (w.resultOf (threeNode false n path 9))) k = 0 := by
      unfold total
      rw [List.filter_eq_nil_iff.2]
      · rfl
      · intro e he hk
        exact h5 (List.mem_map.2 ⟨e, he, by simpa using hk⟩)
    omega

/-- C75: a configuration for curves of genus 1 over the field of 3 elements.  If the package size is changed from 1 to 9
and the directory is kept, the program computes everything again, and after both runs all numbers are twice the right
ones. -/
theorem C75_doubled {n : Nat} {path : List Char} {ss₁ ss₂ : List Sect} {b₁ b₂ : List Block}
    (h : After w.env fs₀ [(ss₁, true), (ss₂, true)] fs) (j₁ : w.Job ss₁) (j₂ : w.Job ss₂) (u₁ : Untouched ss₁ fs₀)
    (u₂ : Untouched ss₂ fs₀) (m₁ : ⟨threeNode false n path 1, b₁⟩ ∈ ss₁) (m₂ : ⟨threeNode false n path 9, b₂⟩ ∈ ss₂)
    (t : w.Setting (threeNode false n path 1)) : ∃ d r m, fs path = some d ∧
      Merger.merge d = .ok ⟨0, some (Store.print m, Record.print r)⟩ ∧
      ∀ k z, (k, z) ∈ m ↔ 0 < z ∧ z = 2 * t.count k :=
  C76_doubled h (by simpa using ⟨j₁.toWork, j₂.toWork⟩) (by simpa using ⟨u₁, u₂⟩)
    (two_runs j₁.input j₂.input m₁ m₂ rfl) t

/-- An input with one section. -/
theorem three_job {n package : Nat} {path : List Char} {marked : Bool} (t : w.Setting (threeNode marked n path package))
    (h0 : 0 < n) (hpk : 0 < package) : ∃ boxes, w.Job [⟨threeNode marked n path package, boxes⟩] := by
  have hc : (threeNode marked n path package).Feasible :=
    ⟨Nat.one_pos, by show 1 < 1073741823; omega, by show 4 * 1 < 4294967296; omega, h0, hpk⟩
  have hsm : polynomials (3 ^ 1) 1 marked < 4611686018427387904 := by cases marked <;> decide
  obtain ⟨boxes, h, _⟩ := C47_blocks t hc (t.count_small hc.genus_pos hsm)
  have hall : ∀ x ∈ [(⟨threeNode marked n path package, boxes⟩ : Sect)], x = ⟨threeNode marked n path package, boxes⟩ :=
    fun x hx => List.mem_singleton.1 hx
  exact ⟨boxes, ⟨fun x hx => by rw [hall x hx]; exact ⟨t⟩, fun x hx => by rw [hall x hx]; exact hc,
    fun x hx => by rw [hall x hx]; exact hsm, fun x hx => by rw [hall x hx]; exact h⟩, by simp⟩

/-- Any two inputs with one section can be worked off one after the other. -/
theorem exists_after {ss₁ ss₂ : List Sect} (j₁ : w.Job ss₁) (j₂ : w.Job ss₂) (z₁ : ∀ s ∈ ss₁, Run.Nonzero s.cfg)
    (z₂ : ∀ s ∈ ss₂, Run.Nonzero s.cfg) :
    ∃ fs, After w.env (fun _ => none) [(ss₁, true), (ss₂, true)] fs := by
  have hu : ∀ ss, Untouched ss fun _ => none := fun ss s _ d hd => by cases hd
  obtain ⟨fs₁, h1⟩ := (C75_continues (kinds := [false]) (u := []) .start (by simp) (by simp) j₁.tasks (hu _) (by decide)).2
    (by simp) z₁
  exact (C75_continues (kinds := [false]) h1 (by simpa using j₁.tasks) (by simpa using hu _) j₂.tasks (hu _) (by decide)).2
    (by simp) z₂

theorem three_nonzero {n package : Nat} {path : List Char} {marked : Bool} {boxes : List Block} (h0 : 0 < n)
    (hpk : 0 < package) : ∀ s ∈ [(⟨threeNode marked n path package, boxes⟩ : Sect)], Run.Nonzero s.cfg := by
  intro s hs
  rw [List.mem_singleton.1 hs]
  exact ⟨by show 3 ≠ 0; decide, by show 1 ≠ 0; decide, by show 1 ≠ 0; decide, by show n ≠ 0; omega,
    by show package ≠ 0; omega⟩

/-- Hypotheses of `C75_doubled` and `C75_package`: there are such runs, and not all numbers vanish. -/
example : ∃ (w : Flint) (b₁ b₂ : List Block) (fs : FileSystem) (t : w.Setting (threeNode false 2 ['a'] 1)),
    w.Job [⟨threeNode false 2 ['a'] 1, b₁⟩] ∧ w.Job [⟨threeNode false 2 ['a'] 9, b₂⟩] ∧ (∃ k, 0 < t.count k) ∧
    After w.env (fun _ => none) [([⟨threeNode false 2 ['a'] 1, b₁⟩], true), ([⟨threeNode false 2 ['a'] 9, b₂⟩], true)] fs := by
  obtain ⟨w, hw⟩ := setting_three
  obtain ⟨t⟩ := hw (threeNode false 2 ['a'] 1) rfl rfl le_rfl
  obtain ⟨b₁, j₁⟩ := three_job t (by decide) Nat.one_pos
  obtain ⟨b₂, j₂⟩ := three_job (package := 9) (t.repack 9) (by decide) (by decide)
  obtain ⟨fs, h⟩ := exists_after j₁ j₂ (three_nonzero (by decide) (by decide)) (three_nonzero (by decide) (by decide))
  exact ⟨w, b₁, b₂, fs, t, j₁, j₂, t.exists_count Nat.one_pos, h⟩

/-- Hypotheses of `C75_exponent`: counts over one field, then over two. -/
example : ∃ (w : Flint) (b₁ b₂ : List Block) (fs : FileSystem) (t : w.Setting (threeNode false 1 ['a'] 2)),
    w.Job [⟨threeNode false 1 ['a'] 2, b₁⟩] ∧ w.Job [⟨threeNode false 2 ['a'] 2, b₂⟩] ∧ (∃ k, 0 < t.count k) ∧
    After w.env (fun _ => none) [([⟨threeNode false 1 ['a'] 2, b₁⟩], true), ([⟨threeNode false 2 ['a'] 2, b₂⟩], true)] fs := by
  obtain ⟨w, hw⟩ := setting_three
  obtain ⟨t⟩ := hw (threeNode false 1 ['a'] 2) rfl rfl (by show 1 ≤ 2; omega)
  obtain ⟨t'⟩ := hw (threeNode false 2 ['a'] 2) rfl rfl le_rfl
  obtain ⟨b₁, j₁⟩ := three_job t (by decide) (by decide)
  obtain ⟨b₂, j₂⟩ := three_job t' (by decide) (by decide)
  obtain ⟨fs, h⟩ := exists_after j₁ j₂ (three_nonzero (by decide) (by decide)) (three_nonzero (by decide) (by decide))
  exact ⟨w, b₁, b₂, fs, t, j₁, j₂, t.exists_count Nat.one_pos, h⟩

/-- Hypotheses of `C75_marked`. -/
example : ∃ (w : Flint) (b₁ b₂ : List Block) (fs : FileSystem) (t : w.Setting (threeNode false 2 ['a'] 2)),
    w.Job [⟨threeNode true 2 ['a'] 2, b₁⟩] ∧ w.Job [⟨threeNode false 2 ['a'] 2, b₂⟩] ∧ (∃ k, 0 < t.count k) ∧
    After w.env (fun _ => none) [([⟨threeNode true 2 ['a'] 2, b₁⟩], true), ([⟨threeNode false 2 ['a'] 2, b₂⟩], true)] fs := by
  obtain ⟨w, hw⟩ := setting_three
  obtain ⟨t⟩ := hw (threeNode true 2 ['a'] 2) rfl rfl le_rfl
  obtain ⟨t'⟩ := hw (threeNode false 2 ['a'] 2) rfl rfl le_rfl
  obtain ⟨b₁, j₁⟩ := three_job t (by decide) (by decide)
  obtain ⟨b₂, j₂⟩ := three_job t' (by decide) (by decide)
  obtain ⟨fs, h⟩ := exists_after j₁ j₂ (three_nonzero (by decide) (by decide)) (three_nonzero (by decide) (by decide))
  exact ⟨w, b₁, b₂, fs, t', j₁, j₂, t'.exists_count Nat.one_pos, h⟩

/-- Two inputs with one section each, as one input with two sections. -/
theorem Flint.Work.append {ss₁ ss₂ : List Sect} (j₁ : w.Work ss₁) (j₂ : w.Work ss₂) : w.Work (ss₁ ++ ss₂) where
  setting s hs := (List.mem_append.1 hs).elim (j₁.setting s) (j₂.setting s)
  feasible s hs := (List.mem_append.1 hs).elim (j₁.feasible s) (j₂.feasible s)
  small s hs := (List.mem_append.1 hs).elim (j₁.small s) (j₂.small s)
  blocks s hs := (List.mem_append.1 hs).elim (j₁.blocks s) (j₂.blocks s)

theorem exists_shared {s₁ s₂ : Sect} (j₁ : w.Job [s₁]) (j₂ : w.Job [s₂]) (z₁ : ∀ s ∈ [s₁], Run.Nonzero s.cfg)
    (z₂ : ∀ s ∈ [s₂], Run.Nonzero s.cfg) :
    w.Work [s₁, s₂] ∧ ∃ fs, After w.env (fun _ => none) [([s₁, s₂], true)] fs := by
  have hw : w.Work [s₁, s₂] := j₁.toWork.append j₂.toWork
  have hu : ∀ ss, Untouched ss fun _ => none := fun ss s _ d hd => by cases hd
  exact ⟨hw, (C75_continues (kinds := [false]) (u := []) .start (by simp) (by simp) hw.tasks (hu _) (by decide)).2
    (by simp) fun s hs => (List.mem_append.1 (show s ∈ [s₁] ++ [s₂] from hs)).elim (z₁ s) (z₂ s)⟩

/-- Hypotheses of `C76_doubled` and `C76_complete`: one run with two sections for the same directory. -/
example : ∃ (w : Flint) (b₁ b₂ : List Block) (fs : FileSystem) (t : w.Setting (threeNode false 2 ['a'] 1)),
    w.Work [⟨threeNode false 2 ['a'] 1, b₁⟩, ⟨threeNode false 2 ['a'] 9, b₂⟩] ∧ (∃ k, 0 < t.count k) ∧
    After w.env (fun _ => none) [([⟨threeNode false 2 ['a'] 1, b₁⟩, ⟨threeNode false 2 ['a'] 9, b₂⟩], true)] fs ∧
    uses ['a'] [([⟨threeNode false 2 ['a'] 1, b₁⟩, ⟨threeNode false 2 ['a'] 9, b₂⟩], true)] =
      [(⟨threeNode false 2 ['a'] 1, b₁⟩, true), (⟨threeNode false 2 ['a'] 9, b₂⟩, true)] := by
  obtain ⟨w, hw⟩ := setting_three
  obtain ⟨t⟩ := hw (threeNode false 2 ['a'] 1) rfl rfl le_rfl
  obtain ⟨b₁, j₁⟩ := three_job t (by decide) Nat.one_pos
  obtain ⟨b₂, j₂⟩ := three_job (package := 9) (t.repack 9) (by decide) (by decide)
  obtain ⟨hj, fs, h⟩ := exists_shared j₁ j₂ (three_nonzero (by decide) (by decide)) (three_nonzero (by decide) (by decide))
  exact ⟨w, b₁, b₂, fs, t, hj, t.exists_count Nat.one_pos, h, rfl⟩

/-- Hypotheses of `C76_exponent`: counts over one field, then over two. -/
example : ∃ (w : Flint) (b₁ b₂ : List Block) (fs : FileSystem) (t : w.Setting (threeNode false 1 ['a'] 2)),
    w.Work [⟨threeNode false 1 ['a'] 2, b₁⟩, ⟨threeNode false 2 ['a'] 2, b₂⟩] ∧ (∃ k, 0 < t.count k) ∧
    After w.env (fun _ => none) [([⟨threeNode false 1 ['a'] 2, b₁⟩, ⟨threeNode false 2 ['a'] 2, b₂⟩], true)] fs ∧
    uses ['a'] [([⟨threeNode false 1 ['a'] 2, b₁⟩, ⟨threeNode false 2 ['a'] 2, b₂⟩], true)] =
      [(⟨threeNode false 1 ['a'] 2, b₁⟩, true), (⟨threeNode false 2 ['a'] 2, b₂⟩, true)] := by
  obtain ⟨w, hw⟩ := setting_three
  obtain ⟨t⟩ := hw (threeNode false 1 ['a'] 2) rfl rfl (by show 1 ≤ 2; omega)
  obtain ⟨t'⟩ := hw (threeNode false 2 ['a'] 2) rfl rfl le_rfl
  obtain ⟨b₁, j₁⟩ := three_job t (by decide) (by decide)
  obtain ⟨b₂, j₂⟩ := three_job t' (by decide) (by decide)
  obtain ⟨hj, fs, h⟩ := exists_shared j₁ j₂ (three_nonzero (by decide) (by decide)) (three_nonzero (by decide) (by decide))
  exact ⟨w, b₁, b₂, fs, t, hj, t.exists_count Nat.one_pos, h, rfl⟩

/-- Hypotheses of `C76_marked`. -/
example : ∃ (w : Flint) (b₁ b₂ : List Block) (fs : FileSystem) (t : w.Setting (threeNode false 2 ['a'] 2)),
    w.Work [⟨threeNode true 2 ['a'] 2, b₁⟩, ⟨threeNode false 2 ['a'] 2, b₂⟩] ∧ (∃ k, 0 < t.count k) ∧
    After w.env (fun _ => none) [([⟨threeNode true 2 ['a'] 2, b₁⟩, ⟨threeNode false 2 ['a'] 2, b₂⟩], true)] fs ∧
    uses ['a'] [([⟨threeNode true 2 ['a'] 2, b₁⟩, ⟨threeNode false 2 ['a'] 2, b₂⟩], true)] =
      [(⟨threeNode true 2 ['a'] 2, b₁⟩, true), (⟨threeNode false 2 ['a'] 2, b₂⟩, true)] := by
  obtain ⟨w, hw⟩ := setting_three
  obtain ⟨t⟩ := hw (threeNode true 2 ['a'] 2) rfl rfl le_rfl
  obtain ⟨t'⟩ := hw (threeNode false 2 ['a'] 2) rfl rfl le_rfl
  obtain ⟨b₁, j₁⟩ := three_job t (by decide) (by decide)
  obtain ⟨b₂, j₂⟩ := three_job t' (by decide) (by decide)
  obtain ⟨hj, fs, h⟩ := exists_shared j₁ j₂ (three_nonzero (by decide) (by decide)) (three_nonzero (by decide) (by decide))
  exact ⟨w, b₁, b₂, fs, t', hj, t'.exists_count Nat.one_pos, h, rfl⟩

/-- Hypotheses of `C76_repeated`: a run that was interrupted, and one that continues it. -/
example : ∃ (w : Flint) (ss : List Sect) (fs : FileSystem), Run.Tasks w.env ss w.resultOf ∧ ss.length = 2 ∧
    (∀ s ∈ ss, s.cfg.resultPath = ['a']) ∧ After w.env (fun _ => none) [(ss, false), (ss, true)] fs := by
  obtain ⟨w, hw⟩ := setting_three
  obtain ⟨t⟩ := hw (threeNode true 2 ['a'] 2) rfl rfl le_rfl
  obtain ⟨t'⟩ := hw (threeNode false 2 ['a'] 2) rfl rfl le_rfl
  obtain ⟨b₁, j₁⟩ := three_job t (by decide) (by decide)
  obtain ⟨b₂, j₂⟩ := three_job t' (by decide) (by decide)
  have hj := (j₁.toWork.append j₂.toWork).tasks
  have hu : ∀ ss, Untouched ss fun _ => none := fun ss s _ d hd => by cases hd
  have h1 : After w.env (fun _ => none) [([⟨threeNode true 2 ['a'] 2, b₁⟩] ++ [⟨threeNode false 2 ['a'] 2, b₂⟩], false)]
      (fun _ => none) := .run .start (.threaded [false] _ _ (by decide) .refl .between)
  obtain ⟨fs, h2⟩ := (C75_continues (kinds := [false]) h1 (by simpa using hj) (by simpa using hu _) hj (hu _) (by decide)).2
    (by simp) fun s hs => (List.mem_append.1 hs).elim (three_nonzero (by decide) (by decide) s)
      (three_nonzero (by decide) (by decide) s)
  refine ⟨w, _, fs, hj, rfl, fun s hs => ?_, h2⟩
  rcases List.mem_append.1 hs with hs | hs <;> rw [List.mem_singleton.1 hs] <;> rfl

end Hycu
