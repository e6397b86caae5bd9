import Verif.Lemmas.ReductionEnds

/-!
C71: the kernel that adds numbers on the device (src/opencl/reduction.cl), and why it cannot be used with the macro
`SIZE_PARTIAL_REDUCTION` as it is.
-/

namespace Hycu
namespace Reduction

open Finset

section

variable {L : Launch} {S : Nat} {st : State}

/-- C71: whatever the order of the steps of the work items, there are no conflicting accesses, no access outside of the
buffers, no read of undefined values, no overflow and no work items at different barriers; and as long as some work item has
not returned, there is a next step. -/
theorem C71_safe (hf : Fits L S) (h : Reachable L st) :
    (∀ l, ∃ o, step L st l = .ok o) ∧ (¬ Finished L st → ∃ l st', step L st l = .ok (some st')) := by
  refine ⟨fun l => ?_, (h.inv hf).next hf⟩
  rcases (h.inv hf).step_ok hf l with h1 | ⟨st', h1, _⟩
  · exact ⟨_, h1⟩
  · exact ⟨_, h1⟩

/-- C71: there are no infinite executions. -/
theorem C71_ends (hf : Fits L S) (f : Nat → State) : ¬ ∀ n, ∃ l, step L (f n) l = .ok (some (f (n + 1))) := by
  intro h
  have key : ∀ n, work L (f n) + n ≤ work L (f 0) := by
    intro n
    induction n with
    | zero => omega
    | succ n ih =>
      obtain ⟨l, hl⟩ := h n
      have := step_work (by rw [hf.val]; exact hf.pos) hf.gsz_pos hl
      omega
  have := key (work L (f 0) + 1)
  omega

/-- The results of an execution. -/
theorem total_levels (hf : Fits L S) (h : Reachable L st) (hn : Finished L st) :
    ∃ k, (∀ j < k, S ≤ offset L j) ∧ offset L k < S ∧
      Total st (L.groups * S) (∑ g ∈ range L.groups, ∑ l ∈ range S, level L g k l) := by
  obtain ⟨k, hk, hk', _⟩ := (h.inv hf).finished hf hn hf.groups
  have hv : ∀ g < L.groups, ∀ l < S, st.sums (S * g + l) = some (level L g k l) := by
    intro g hg
    obtain ⟨k', h1, h2, h3⟩ := (h.inv hf).finished hf hn hg
    rw [rounds_unique hk hk' h1 h2]
    exact h3
  obtain ⟨vs, h1, h2⟩ := sums_list hv
  refine ⟨k, hk, hk', vs, h1, fun x hx => ?_, h2⟩
  have h3 : some x ∈ (List.range (L.groups * S)).map st.sums := by
    rw [h1]
    exact List.mem_map.2 ⟨x, hx, rfl⟩
  obtain ⟨i, hi, h4⟩ := List.mem_map.1 h3
  rw [List.mem_range] at hi
  have h5 := hv (i / S) (Nat.div_lt_of_lt_mul (by rw [mul_comm]; exact hi)) (i % S) (Nat.mod_lt _ hf.pos)
  rw [Nat.div_add_mod, h4] at h5
  rw [Option.some.inj h5]
  exact hf.level_nonneg _ _ _

/-- C71: if the local size is the size of the partial results times a power of two, then the numbers that the host reads are
determined, and their sum is the sum of the buffer. -/
theorem C71_sum (hf : Fits L S) {n : Nat} (hl : L.lsz = S * 2 ^ n) (h : Reachable L st) (hn : Finished L st) :
    Total st (L.groups * S) L.as.sum := by
  obtain ⟨k, hk, hk', ht⟩ := total_levels hf h hn
  have hn1 : ∀ j < n, S ≤ offset L j := by
    intro j hj
    rw [(offset_pow hl hj).2]
    exact Nat.le_mul_of_pos_right _ (Nat.two_pow_pos _)
  have hn2 : offset L n < S := by
    unfold offset
    rw [hl, pow_succ, ← Nat.div_div_eq_div_mul, Nat.mul_div_cancel _ (Nat.two_pow_pos _)]
    exact Nat.div_lt_self hf.pos (by omega)
  have he := rounds_unique hk hk' hn1 hn2
  subst he
  have hs : ∀ g, ∑ l ∈ range S, level L g k l = ∑ l ∈ range L.lsz, part L g l := by
    intro g
    have := sum_level_pow hl g le_rfl
    rwa [Nat.sub_self, pow_zero, mul_one] at this
  simp only [hs] at ht
  rwa [hf.sum_parts] at ht

end

/-- A launch of any size. -/
def sized (S groups lsz : Nat) (as : List Int) : Launch := ⟨.value S, as, as.length, groups, lsz, lsz, S * groups⟩

theorem ones_fit {S groups lsz : Nat} (hS : 0 < S) (hl : S ≤ lsz) (hg : 0 < groups) (hb : 2 * (groups * lsz) ≤ 2147483648) :
    Fits (sized S groups lsz (List.replicate (groups * lsz) 1)) S where
  size := rfl
  pos := hS
  lsz := hl
  groups := hg
  len := rfl
  scratch := le_rfl
  nsums := le_rfl
  nonneg a ha := by
    rw [List.eq_of_mem_replicate ha]
    decide
  sum := by
    have : 0 < groups * lsz := Nat.mul_pos hg (hS.trans_le hl)
    simp only [sized, List.sum_replicate, nsmul_eq_mul, mul_one]
    omega
  bound := by
    show (List.replicate (groups * lsz) (1 : Int)).length + groups * lsz ≤ _
    rw [List.length_replicate]
    omega

/-- C71: the sum is right for all buffers exactly if the local size is the size of the partial results times a power of
two.  Otherwise numbers are left out. -/
theorem C71_iff {S groups lsz : Nat} (hS : 0 < S) (hl : S ≤ lsz) (hg : 0 < groups) (hb : 2 * (groups * lsz) ≤ 2147483648) :
    (∀ as st, Fits (sized S groups lsz as) S → Reachable (sized S groups lsz as) st → Finished (sized S groups lsz as) st →
      Total st (groups * S) as.sum) ↔ ∃ n, lsz = S * 2 ^ n := by
  constructor
  · intro h
    have hf := ones_fit hS hl hg hb
    obtain ⟨st, h1, h2⟩ := exists_finished hf .start
    obtain ⟨vs, h3, _, h4⟩ := h _ st hf h1 h2
    obtain ⟨k, hk, hk', vs', h3', _, h4'⟩ := total_levels hf h1 h2
    have he : vs = vs' := by
      have h5 : vs.map some = vs'.map some := h3.symm.trans h3'
      exact List.map_injective_iff.2 (Option.some_injective _) h5
    rw [← he, h4] at h4'
    have hSk : S ≤ lsz / 2 ^ k := by
      cases k with
      | zero => rw [pow_zero, Nat.div_one]; exact hl
      | succ k => exact hk k (Nat.lt_succ_self k)
    have hsum : ∑ g ∈ range groups, ∑ l ∈ range S, level (sized S groups lsz (List.replicate (groups * lsz) 1)) g k l =
        (groups : Int) * (S * 2 ^ k) := by
      have h5 : ∀ g ∈ range groups, ∑ l ∈ range S, level (sized S groups lsz (List.replicate (groups * lsz) 1)) g k l =
          ∑ _l ∈ range S, 2 ^ k := fun g hg => Finset.sum_congr rfl fun l hl =>
        level_ones (L := sized S groups lsz (List.replicate (groups * lsz) 1)) (Finset.mem_range.1 hg) rfl
          ((Finset.mem_range.1 hl).trans_le hSk)
      rw [Finset.sum_congr rfl h5]
      simp
    refine ⟨k, ?_⟩
    have h6 : ((groups * lsz : Nat) : Int) = (groups : Int) * (S * 2 ^ k) := by
      rw [← hsum]
      refine Eq.trans ?_ h4'
      simp
    have h7 : groups * lsz = groups * (S * 2 ^ k) := by exact_mod_cast h6
    exact Nat.eq_of_mul_eq_mul_left hg h7
  · rintro ⟨n, hn⟩ as st hf h1 h2
    exact C71_sum hf hn h1 h2

/-- C71: with the sizes in the code, and any power of two up to 256 for `SIZE_PARTIAL_REDUCTION` that is written as one
token or in parentheses, the result is the sum of the buffer, that is the result of the code that is compiled now. -/
theorem C71_reduce {j : Nat} (hj : j ≤ 8) {as : List Int} (h0 : ∀ a ∈ as, 0 ≤ a) (hs : as.sum < 2147483648)
    (hb : as.length + 8192 ≤ 2147483648) :
    (∀ st, Reachable (launch (.value (2 ^ j)) as) st → Finished (launch (.value (2 ^ j)) as) st →
      Total st (launch (.value (2 ^ j)) as).nsums as.sum) ∧
    ∃ st, Reachable (launch (.value (2 ^ j)) as) st ∧ Finished (launch (.value (2 ^ j)) as) st := by
  have h256 : 2 ^ j * 2 ^ (8 - j) = 256 := by
    rw [← pow_add, show j + (8 - j) = 8 by omega]
    norm_num
  have hf : Fits (launch (.value (2 ^ j)) as) (2 ^ j) := {
    size := rfl
    pos := Nat.two_pow_pos j
    lsz := by
      show 2 ^ j ≤ 256
      rw [← h256]
      exact Nat.le_mul_of_pos_right _ (Nat.two_pow_pos _)
    groups := show 0 < 8192 / 256 by norm_num
    len := rfl
    scratch := le_rfl
    nsums := by
      show 2 ^ j * (8192 / 256) ≤ 8192 / 256 * 2 ^ j
      rw [mul_comm]
    nonneg := h0
    sum := hs
    bound := by
      show as.length + 8192 / 256 * 256 ≤ _
      norm_num
      exact hb }
  exact ⟨fun st h1 h2 => C71_sum hf h256.symm h1 h2, exists_finished hf .start⟩

/-- C71: with size zero, as in the code, no work item ever returns; the kernel must not be run. -/
theorem C71_zero {L : Launch} (h0 : L.size.val = 0) (hg : 0 < L.groups) (hl : 0 < L.lsz) {st : State} (h : Reachable L st) :
    ¬ Finished L st := fun hn => (h.looping h0 0 0).2 (hn 0 hg 0 hl)

/-- The macro in src/opencl/program_reduction.hh has the value zero. -/
theorem C71_current : (Macro.shr 1 2).val = 0 := rfl

/-- C71: with a power of two written as a shift without parentheses, like the present text, the work items of different
groups write to the same places: no execution comes to its end without undefined behaviour. -/
theorem C71_shift {L : Launch} {n : Nat} (hs : L.size = .shl 1 n) (hl : 2 ^ n ≤ L.lsz) (hg : 2 ≤ L.groups) {st : State}
    (h : Reachable L st) : ¬ Finished L st := by
  intro hn
  have hv : L.size.val = 2 ^ n := by
    rw [hs]
    show 1 <<< n = _
    rw [Nat.shiftLeft_eq, one_mul]
  have hlt : n < 2 ^ n := Nat.lt_two_pow_self
  have h1 := h.owned.done 0 (by omega) n (by omega) (hn 0 (by omega) n (by omega)) (by omega)
  have h2 := h.owned.done 1 (by omega) 0 (by omega) (hn 1 (by omega) 0 (by omega)) (by omega)
  have h3 : L.size.place 0 n = L.size.place 1 0 := by
    rw [hs]
    simp [Macro.place]
  have h4 := h.owned.unique _ h1 _ h2 h3
  have h5 := congrArg (fun w => w.2.1) h4
  exact absurd h5 (by simp)

/-! ### Examples -/

/-- Two groups of four work items, two partial results for each of them, and eleven numbers. -/
def exampleLaunch : Launch := sized 2 2 4 [3, 1, 4, 1, 5, 9, 2, 6, 5, 3, 5]

theorem exampleLaunch_fits : Fits exampleLaunch 2 :=
  ⟨rfl, by decide, by decide, by decide, rfl, by decide, by decide, by decide, by decide, by decide⟩

example : ∃ st, Reachable exampleLaunch st ∧ Finished exampleLaunch st ∧ Total st 4 44 := by
  obtain ⟨st, h1, h2⟩ := exists_finished exampleLaunch_fits .start
  exact ⟨st, h1, h2, C71_sum exampleLaunch_fits (n := 1) rfl h1 h2⟩

/-- With local size six numbers are left out. -/
example : ∃ as st, Reachable (sized 1 1 6 as) st ∧ Finished (sized 1 1 6 as) st ∧ ¬ Total st 1 as.sum := by
  by_contra h
  have h1 := (C71_iff (S := 1) (groups := 1) (lsz := 6) (by decide) (by decide) (by decide) (by decide)).1
    fun as st _ h2 h3 => by
      by_contra h4
      exact h ⟨as, st, h2, h3, h4⟩
  obtain ⟨n, hn⟩ := h1
  rcases n with _ | _ | _ | n
  · omega
  · omega
  · omega
  · have : 2 ^ (n + 3) = 2 ^ n * 8 := by rw [pow_add]; norm_num
    have := Nat.two_pow_pos n
    omega

/-- The launch with the macro of the code. -/
example (as : List Int) {st : State} (h : Reachable (launch (.shr 1 2) as) st) : ¬ Finished (launch (.shr 1 2) as) st :=
  C71_zero C71_current (show 0 < 8192 / 256 by norm_num) (show 0 < 256 by norm_num) h

/-- The launch with `1 << 2`. -/
example (as : List Int) {st : State} (h : Reachable (launch (.shl 1 2) as) st) : ¬ Finished (launch (.shl 1 2) as) st :=
  C71_shift rfl (show 2 ^ 2 ≤ 256 by decide) (show 2 ≤ 8192 / 256 by decide) h

end Reduction
end Hycu
