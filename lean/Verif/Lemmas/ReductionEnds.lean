import Verif.Lemmas.Reduction

/-!
Executions of the kernel `reduce` end if `SIZE_PARTIAL_REDUCTION` is positive; what is written at the end, and by whom.
-/

namespace Hycu
namespace Reduction

open Finset

/-- The number of steps that are left for a work item, at most. -/
def rank (L : Launch) : Pc → Nat
  | .acc ix _ => 5 * (L.lsz / 2) + 5 + (L.len - ix)
  | .put _ => 5 * (L.lsz / 2) + 4
  | .wait o => 5 * o + 3
  | .loop o => 5 * o + 2
  | .load o => 5 * (o / 2) + 5
  | .store o _ => 5 * (o / 2) + 4
  | .last => 1
  | .done => 0

/-- The number of steps that are left, at most. -/
def work (L : Launch) (st : State) : Nat := ∑ g ∈ range L.groups, ∑ l ∈ range L.lsz, rank L ((st.group g).pc l)

section

variable {L : Launch} {st st' : State}

theorem access_pc {G G' : Group} {a : Access} (h : access L G a = .ok G') : G'.pc = G.pc := by
  unfold access at h
  split at h
  · cases h
  split at h
  · cases h
  cases h
  rfl

theorem read_pc {G : Group} {l i : Nat} {r : Group × Int} (h : read L G l i = .ok r) : r.1.pc = G.pc := by
  obtain ⟨G', h1, h2⟩ := Res.bind_eq_ok.1 h
  split at h2
  · cases h2
    exact access_pc h1
  · cases h2

theorem write_pc {G G' : Group} {l i : Nat} {v : Int} (h : write L G l i v = .ok G') : G'.pc = G.pc := by
  obtain ⟨G1, h1, h2⟩ := Res.bind_eq_ok.1 h
  cases h2
  exact (access_pc h1 :)

theorem itemStep_rank (hS : 0 < L.size.val) (hg : 0 < L.gsz) {l : Nat} {G G' : Group} (h : itemStep L l G = .ok (some G')) :
    ∃ pc, G'.pc = Function.update G.pc l pc ∧ rank L pc < rank L (G.pc l) := by
  unfold itemStep at h
  split at h
  · rename_i ix a hp
    rw [hp]
    split at h
    · split at h
      · cases h
      · obtain ⟨_, _, h⟩ := Res.bind_eq_ok.1 h
        obtain ⟨_, _, h⟩ := Res.bind_eq_ok.1 h
        cases h
        exact ⟨_, rfl, by simp only [rank]; omega⟩
    · cases h
      exact ⟨_, rfl, by simp only [rank]; omega⟩
  · rename_i a hp
    rw [hp]
    obtain ⟨G1, h1, h⟩ := Res.bind_eq_ok.1 h
    cases h
    rw [← write_pc h1]
    exact ⟨_, rfl, by simp only [rank]; omega⟩
  · rename_i o hp
    rw [hp]
    split at h
    · split at h
      · cases h
        exact ⟨_, rfl, by simp only [rank]; omega⟩
      · cases h
        exact ⟨_, rfl, by simp only [rank]; omega⟩
    · cases h
      exact ⟨_, rfl, by simp only [rank]; omega⟩
  · rename_i o hp
    rw [hp]
    obtain ⟨r, h1, h⟩ := Res.bind_eq_ok.1 h
    cases h
    rw [← read_pc h1]
    exact ⟨_, rfl, by simp only [rank]; omega⟩
  · rename_i o v hp
    rw [hp]
    obtain ⟨r, h1, h⟩ := Res.bind_eq_ok.1 h
    obtain ⟨s, _, h⟩ := Res.bind_eq_ok.1 h
    obtain ⟨G1, h2, h⟩ := Res.bind_eq_ok.1 h
    cases h
    rw [← read_pc h1, ← write_pc h2]
    exact ⟨_, rfl, by simp only [rank]; omega⟩
  all_goals cases h

theorem lastStep_pc {g l : Nat} (h : lastStep L g l st = .ok (some st')) :
    (∀ j, j ≠ g → st'.group j = st.group j) ∧ (st'.group g).pc = Function.update (st.group g).pc l .done := by
  unfold lastStep at h
  split at h
  · obtain ⟨r, h1, h⟩ := Res.bind_eq_ok.1 h
    dsimp only at h
    split at h
    · cases h
    split at h
    · cases h
    cases h
    refine ⟨fun j hj => Function.update_of_ne hj .., ?_⟩
    dsimp only
    rw [Function.update_self]
    show Function.update r.1.pc l .done = _
    rw [read_pc h1]
  · cases h
    refine ⟨fun j hj => Function.update_of_ne hj .., ?_⟩
    dsimp only
    rw [Function.update_self]
    rfl

theorem sum_update {n x : Nat} (hx : x < n) {f f' : Nat → Nat} (h : ∀ j, j ≠ x → f' j = f j) (hlt : f' x < f x) :
    ∑ j ∈ range n, f' j < ∑ j ∈ range n, f j := by
  refine Finset.sum_lt_sum (fun j _ => ?_) ⟨x, Finset.mem_range.2 hx, hlt⟩
  by_cases hj : j = x
  · rw [hj]; exact hlt.le
  · rw [h j hj]

/-- Every step makes the rest shorter. -/
theorem step_work (hS : 0 < L.size.val) (hg : 0 < L.gsz) {l : Label} (h : step L st l = .ok (some st')) :
    work L st' < work L st := by
  cases l with
  | item g l =>
    simp only [step] at h
    split at h
    case isFalse => cases h
    case isTrue hgl =>
    have key : ∀ st' : State, (∀ j, j ≠ g → st'.group j = st.group j) →
        (∃ pc, (st'.group g).pc = Function.update (st.group g).pc l pc ∧ rank L pc < rank L ((st.group g).pc l)) →
        work L st' < work L st := by
      rintro st' h1 ⟨pc, h2, h3⟩
      refine sum_update hgl.1 (fun j hj => by rw [h1 j hj]) (sum_update hgl.2 (fun j hj => ?_) ?_)
      · rw [h2, Function.update_of_ne hj]
      · rw [h2, Function.update_self]
        exact h3
    split at h
    · rename_i hp
      obtain ⟨h1, h2⟩ := lastStep_pc h
      exact key _ h1 ⟨_, h2, by rw [hp]; exact Nat.zero_lt_one⟩
    · obtain ⟨o, h1, h2⟩ := Res.bind_eq_ok.1 h
      cases o with
      | none => cases h2
      | some G =>
        cases h2
        refine key _ (fun j hj => Function.update_of_ne hj ..) ?_
        dsimp only
        rw [Function.update_self]
        exact itemStep_rank hS hg h1
  | barrier g =>
    simp only [step] at h
    split at h
    case isFalse => cases h
    case isTrue hgl =>
    have h0 : 0 < L.lsz := Nat.pos_of_mul_pos_left hg
    obtain ⟨o, h1, h2⟩ := Res.bind_eq_ok.1 h
    cases o with
    | none => cases h2
    | some G =>
      cases h2
      unfold barrierStep at h1
      split at h1
      case isFalse => cases h1
      split at h1
      case isTrue => cases h1
      split at h1
      case h_2 => cases h1
      split at h1
      case isFalse => cases h1
      rename_i hw
      cases h1
      refine sum_update hgl (fun j hj => ?_) ?_
      · dsimp only
        rw [Function.update_of_ne hj]
      · dsimp only
        rw [Function.update_self]
        refine Finset.sum_lt_sum_of_nonempty (Finset.nonempty_range_iff.2 h0.ne') fun l hl => ?_
        rw [hw l (Finset.mem_range.1 hl)]
        simp only [rank]
        omega

/-- As long as there is a work item that has not returned, there is a next step. -/
theorem Inv.next {S : Nat} (hf : Fits L S) (h : Inv L S st) (hn : ¬ Finished L st) :
    ∃ l st', step L st l = .ok (some st') := by
  by_contra hno
  refine hn fun g hg l hl => ?_
  have hstop : ∀ l < L.lsz, ((st.group g).pc l).stopped = true := by
    intro l hl
    rcases h.item hf hg hl with h1 | ⟨st', h1, _⟩
    · exact h1
    · exact absurd ⟨_, st', h1⟩ hno
  by_contra hd
  have h0 : barrierStep L (st.group g) = .ok none := by
    rcases (h.groups g hg).barrier hf with h1 | ⟨G', h1, _⟩
    · exact h1
    · refine absurd ⟨.barrier g, { st with group := Function.update st.group g G' }, ?_⟩ hno
      simp only [step]
      rw [if_pos hg, h1]
      rfl
  unfold barrierStep at h0
  rw [if_pos hstop, if_neg fun h1 => hd (h1 l hl)] at h0
  split at h0
  · split at h0 <;> cases h0
  · cases h0

/-- Executions can be continued until all work items have returned. -/
theorem exists_finished {S : Nat} (hf : Fits L S) (h : Reachable L st) : ∃ st', Reachable L st' ∧ Finished L st' := by
  induction hw : work L st using Nat.strong_induction_on generalizing st with
  | _ n ih =>
    by_cases hn : Finished L st
    · exact ⟨st, h, hn⟩
    · obtain ⟨l, st', hs⟩ := (h.inv hf).next hf hn
      exact ih _ (hw ▸ step_work (by rw [hf.val]; exact hf.pos) hf.gsz_pos hs) (.step l h hs) rfl

/-! ### The result -/

/-- What has been written at the end. -/
theorem Inv.finished {S : Nat} (hf : Fits L S) (h : Inv L S st) (hn : Finished L st) {g : Nat} (hg : g < L.groups) :
    ∃ k, (∀ j < k, S ≤ offset L j) ∧ offset L k < S ∧ ∀ l < S, st.sums (S * g + l) = some (level L g k l) := by
  have h0 : 0 < L.lsz := hf.pos.trans_le hf.lsz
  rcases h.groups g hg with h1 | ⟨k, h1⟩
  · rcases h1.items 0 h0 with ⟨_, h2, _⟩ | h2 | ⟨h2, _⟩ <;> rw [hn g hg 0 h0] at h2 <;> cases h2
  · have hd : ∀ l < L.lsz, offset L k < S ∧ (l < S → st.sums (S * g + l) = some (level L g k l)) := by
      intro l hl
      have hp := hn g hg l hl
      rcases h1.items l hl with ⟨h2, _⟩ | ⟨_, h2 | ⟨_, _, h2 | h2⟩ | ⟨h3, h2 | h2⟩⟩
      · rw [hp] at h2; cases h2
      · rw [hp] at h2; cases h2
      · rw [hp] at h2; cases h2
      · rw [hp] at h2; cases h2
      · rw [hp] at h2; cases h2
      · exact ⟨h3, h2.2⟩
    exact ⟨k, h1.before, (hd 0 h0).1, fun l hl => (hd l (hl.trans_le hf.lsz)).2 hl⟩

/-- The number of rounds is the same for all groups. -/
theorem rounds_unique {S k k' : Nat} (h : ∀ j < k, S ≤ offset L j) (h1 : offset L k < S) (h' : ∀ j < k', S ≤ offset L j)
    (h1' : offset L k' < S) : k = k' := by
  rcases Nat.lt_trichotomy k k' with h2 | h2 | h2
  · have := h' k h2; omega
  · exact h2
  · have := h k' h2; omega

theorem offset_pow {S n : Nat} (hl : L.lsz = S * 2 ^ n) {j : Nat} (hj : j < n) :
    offset L j + offset L j = S * 2 ^ (n - j) ∧ offset L j = S * 2 ^ (n - (j + 1)) := by
  have h1 : offset L j = S * 2 ^ (n - (j + 1)) := by
    unfold offset
    rw [hl, show n = (n - (j + 1)) + (j + 1) by omega, pow_add, ← mul_assoc, Nat.mul_div_cancel _ (Nat.two_pow_pos _)]
    congr 2
    omega
  refine ⟨?_, h1⟩
  rw [h1, show n - j = (n - (j + 1)) + 1 by omega, pow_succ]
  ring

/-- If the sizes fit, nothing is lost. -/
theorem sum_level_pow {S n : Nat} (hl : L.lsz = S * 2 ^ n) (g : Nat) {k : Nat} (hk : k ≤ n) :
    ∑ l ∈ range (S * 2 ^ (n - k)), level L g k l = ∑ l ∈ range L.lsz, part L g l := by
  induction k with
  | zero =>
    rw [Nat.sub_zero, ← hl]
    rfl
  | succ k ih =>
    obtain ⟨h1, h2⟩ := offset_pow hl (show k < n by omega)
    rw [← ih (by omega), ← h2, ← h1]
    exact sum_level g k

/-- The results of all groups, one after the other. -/
theorem sums_list {S n : Nat} {f : Nat → Option Int} {v : Nat → Nat → Int}
    (h : ∀ g < n, ∀ l < S, f (S * g + l) = some (v g l)) :
    ∃ vs : List Int, (List.range (n * S)).map f = vs.map some ∧ vs.sum = ∑ g ∈ range n, ∑ l ∈ range S, v g l := by
  induction n with
  | zero => exact ⟨[], by simp⟩
  | succ n ih =>
    obtain ⟨vs, h1, h2⟩ := ih fun g hg => h g (by omega)
    refine ⟨vs ++ (List.range S).map (v n), ?_, ?_⟩
    · rw [Nat.succ_mul, List.range_add, List.map_append, h1, List.map_append, List.map_map, List.map_map]
      congr 1
      refine List.map_congr_left fun l hl => ?_
      rw [List.mem_range] at hl
      have := h n (by omega) l hl
      rw [mul_comm] at this
      exact this
    · rw [List.sum_append, h2, Finset.sum_range_succ]
      have : ∀ m, ((List.range m).map (v n)).sum = ∑ l ∈ range m, v n l := by
        intro m
        induction m with
        | zero => simp
        | succ m ih => rw [List.range_succ, List.map_append, List.sum_append, ih, Finset.sum_range_succ]; simp
      rw [this S]

/-! ### Equal numbers -/

theorem part_ones {g l : Nat} (hg : g < L.groups) (hl : l < L.lsz) (ha : L.as = List.replicate L.gsz 1) :
    part L g l = 1 := by
  have hx : g * L.lsz + l < L.gsz := by
    have h1 : (g + 1) * L.lsz ≤ L.groups * L.lsz := Nat.mul_le_mul_right _ hg
    have h2 : (g + 1) * L.lsz = g * L.lsz + L.lsz := by ring
    unfold Launch.gsz
    omega
  unfold part upto
  rw [Finset.sum_eq_single_of_mem (g * L.lsz + l)]
  · rw [ha, List.getD_eq_getElem?_getD, List.getElem?_replicate, if_pos hx]
    rfl
  · rw [Finset.mem_filter, Finset.mem_range, ha, List.length_replicate]
    exact ⟨hx, Nat.mod_eq_of_lt hx⟩
  · intro i hi hne
    rw [Finset.mem_filter, Finset.mem_range, ha, List.length_replicate] at hi
    rw [Nat.mod_eq_of_lt hi.1] at hi
    exact absurd hi.2 hne

theorem level_ones {g k : Nat} (hg : g < L.groups) (ha : L.as = List.replicate L.gsz 1) {l : Nat} (hl : l < L.lsz / 2 ^ k) :
    level L g k l = 2 ^ k := by
  induction k generalizing l with
  | zero =>
    rw [pow_zero, Nat.div_one] at hl
    exact part_ones hg hl ha
  | succ k ih =>
    have ho := offset_le (L := L) k
    have hl' : l < offset L k := hl
    rw [level_succ_of_lt hl', ih (by omega), ih (by omega), pow_succ]
    ring

/-! ### Who writes -/

/-- Different work items have written to different places, and those that have to write have written before they return. -/
structure Owned (L : Launch) (st : State) : Prop where
  unique : ∀ w ∈ st.log, ∀ w' ∈ st.log, w.1 = w'.1 → w = w'
  done : ∀ g < L.groups, ∀ l < L.lsz, (st.group g).pc l = .done → l < L.size.val → (L.size.place g l, g, l) ∈ st.log

theorem itemStep_pc {l : Nat} {G G' : Group} (h : itemStep L l G = .ok (some G')) :
    ∃ pc, G'.pc = Function.update G.pc l pc ∧ pc ≠ .done ∧ (L.size.val = 0 → pc ≠ .last) := by
  have key : ∀ {G1 : Group} {pc : Pc}, G1.pc = G.pc → pc ≠ .done → (L.size.val = 0 → pc ≠ .last) →
      ∃ pc', (G1.goto l pc).pc = Function.update G.pc l pc' ∧ pc' ≠ .done ∧ (L.size.val = 0 → pc' ≠ .last) := by
    intro G1 pc h1 h2 h3
    exact ⟨pc, by rw [← h1]; rfl, h2, h3⟩
  unfold itemStep at h
  split at h
  · split at h
    · split at h
      · cases h
      · obtain ⟨_, _, h⟩ := Res.bind_eq_ok.1 h
        obtain ⟨_, _, h⟩ := Res.bind_eq_ok.1 h
        cases h
        exact key rfl (by simp) (by simp)
    · cases h
      exact key rfl (by simp) (by simp)
  · obtain ⟨G1, h1, h⟩ := Res.bind_eq_ok.1 h
    cases h
    exact key (write_pc h1) (by simp) (by simp)
  · split at h
    · split at h
      · cases h
        exact key rfl (by simp) (by simp)
      · cases h
        exact key rfl (by simp) (by simp)
    · cases h
      exact key rfl (by simp) (by omega)
  · obtain ⟨r, h1, h⟩ := Res.bind_eq_ok.1 h
    cases h
    exact key (read_pc h1) (by simp) (by simp)
  · obtain ⟨r, h1, h⟩ := Res.bind_eq_ok.1 h
    obtain ⟨s, _, h⟩ := Res.bind_eq_ok.1 h
    obtain ⟨G1, h2, h⟩ := Res.bind_eq_ok.1 h
    cases h
    exact key ((write_pc h2).trans (read_pc h1)) (by simp) (by simp)
  all_goals cases h

theorem itemStep_done {l j : Nat} {G G' : Group} (h : itemStep L l G = .ok (some G')) (hd : G'.pc j = .done) :
    G.pc j = .done := by
  obtain ⟨pc, h1, h2, _⟩ := itemStep_pc h
  rw [h1] at hd
  by_cases hj : j = l
  · rw [hj, Function.update_self] at hd
    exact absurd hd h2
  · rwa [Function.update_of_ne hj] at hd

theorem barrierStep_pc {j : Nat} {G G' : Group} (h : barrierStep L G = .ok (some G')) : ∃ o, G'.pc j = .loop o := by
  unfold barrierStep at h
  split at h
  case isFalse => cases h
  split at h
  case isTrue => cases h
  split at h
  case h_2 => cases h
  split at h
  case isFalse => cases h
  cases h
  exact ⟨_, rfl⟩

theorem Reachable.owned (h : Reachable L st) : Owned L st := by
  induction h with
  | start => exact ⟨fun w hw => (by cases hw), fun g _ l _ hp => (by cases hp)⟩
  | @step st st' lab _ hs ih =>
    have keep : ∀ (g : Nat) (G : Group), (∀ j, G.pc j = .done → (st.group g).pc j = .done) →
        Owned L { st with group := Function.update st.group g G } := by
      intro g G hG
      refine ⟨ih.unique, fun g' hg l hl hp hS => ?_⟩
      by_cases hgg : g' = g
      · subst hgg
        dsimp only at hp
        rw [Function.update_self] at hp
        exact ih.done g' hg l hl (hG l hp) hS
      · dsimp only at hp
        rw [Function.update_of_ne hgg] at hp
        exact ih.done g' hg l hl hp hS
    cases lab with
    | item g l =>
      simp only [Reduction.step] at hs
      split at hs
      case isFalse => cases hs
      split at hs
      · unfold lastStep at hs
        split at hs
        · obtain ⟨r, h1, hs⟩ := Res.bind_eq_ok.1 hs
          dsimp only at hs
          split at hs
          · cases hs
          split at hs
          · cases hs
          rename_i hany
          cases hs
          have hno : ∀ w ∈ st.log, w.1 = L.size.place g l → w.2 = (g, l) := by
            intro w hw he
            by_contra hne
            refine hany (List.any_eq_true.2 ⟨w, hw, ?_⟩)
            simp [he, hne]
          refine ⟨fun w hw w' hw' he => ?_, fun g' hg l' hl hp hS => ?_⟩
          · rcases List.mem_cons.1 hw with rfl | hw <;> rcases List.mem_cons.1 hw' with rfl | hw'
            · rfl
            · exact (Prod.ext he.symm (hno w' hw' he.symm)).symm
            · exact Prod.ext he (hno w hw he)
            · exact ih.unique w hw w' hw' he
          · by_cases hgl : g' = g ∧ l' = l
            · rw [hgl.1, hgl.2]
              exact List.mem_cons_self
            · refine List.mem_cons_of_mem _ (ih.done g' hg l' hl ?_ hS)
              by_cases hgg : g' = g
              · subst hgg
                dsimp only at hp
                rw [Function.update_self] at hp
                have hp' : Function.update r.1.pc l .done l' = .done := hp
                rw [Function.update_of_ne fun h => hgl ⟨rfl, h⟩, read_pc h1] at hp'
                exact hp'
              · dsimp only at hp
                rw [Function.update_of_ne hgg] at hp
                exact hp
        · rename_i hlS
          cases hs
          refine ⟨ih.unique, fun g' hg l' hl hp hS => ih.done g' hg l' hl ?_ hS⟩
          by_cases hgg : g' = g
          · subst hgg
            dsimp only at hp
            rw [Function.update_self] at hp
            have hp' : Function.update (st.group g').pc l .done l' = .done := hp
            rw [Function.update_of_ne fun h : l' = l => hlS (h ▸ hS)] at hp'
            exact hp'
          · dsimp only at hp
            rw [Function.update_of_ne hgg] at hp
            exact hp
      · obtain ⟨o, h1, h2⟩ := Res.bind_eq_ok.1 hs
        cases o with
        | none => cases h2
        | some G =>
          cases h2
          exact keep g G fun j hj => itemStep_done h1 hj
    | barrier g =>
      simp only [Reduction.step] at hs
      split at hs
      case isFalse => cases hs
      obtain ⟨o, h1, h2⟩ := Res.bind_eq_ok.1 hs
      cases o with
      | none => cases h2
      | some G =>
        cases h2
        refine keep g G fun j hj => ?_
        obtain ⟨o, h3⟩ := barrierStep_pc (j := j) h1
        rw [h3] at hj
        cases hj

/-- If the size is zero, no work item leaves the second loop. -/
theorem Reachable.looping (h : Reachable L st) (h0 : L.size.val = 0) (g l : Nat) :
    (st.group g).pc l ≠ .last ∧ (st.group g).pc l ≠ .done := by
  induction h generalizing g l with
  | start => exact ⟨by simp [initial], by simp [initial]⟩
  | @step st st' lab _ hs ih =>
    have keep : ∀ (g' : Nat) (G : Group), (∀ j, G.pc j ≠ .last ∧ G.pc j ≠ .done) →
        ((Function.update st.group g' G g).pc l ≠ .last ∧ (Function.update st.group g' G g).pc l ≠ .done) := by
      intro g' G hG
      by_cases hgg : g = g'
      · rw [hgg, Function.update_self]
        exact hG l
      · rw [Function.update_of_ne hgg]
        exact ih g l
    cases lab with
    | item g' l' =>
      simp only [Reduction.step] at hs
      split at hs
      case isFalse => cases hs
      split at hs
      · rename_i hp
        exact absurd hp (ih g' l').1
      · obtain ⟨o, h1, h2⟩ := Res.bind_eq_ok.1 hs
        cases o with
        | none => cases h2
        | some G =>
          cases h2
          refine keep g' G fun j => ?_
          obtain ⟨pc, h3, h4, h5⟩ := itemStep_pc h1
          rw [h3]
          by_cases hj : j = l'
          · rw [hj, Function.update_self]
            exact ⟨h5 h0, h4⟩
          · rw [Function.update_of_ne hj]
            exact ih g' j
    | barrier g' =>
      simp only [Reduction.step] at hs
      split at hs
      case isFalse => cases hs
      obtain ⟨o, h1, h2⟩ := Res.bind_eq_ok.1 hs
      cases o with
      | none => cases h2
      | some G =>
        cases h2
        refine keep g' G fun j => ?_
        obtain ⟨o, h3⟩ := barrierStep_pc (j := j) h1
        rw [h3]
        exact ⟨by simp, by simp⟩

end

end Reduction
end Hycu
