import Verif.Lemmas.OpenCLRace
import Verif.Spec.OpenCLItems

/-!
Work items in single accesses do the same as work items in one step.
-/

namespace Hycu
namespace Items

open OpenCL Function

/-! ### Accesses -/

/-- Parameters that are written to. -/
def Param.out : Param → Bool
  | .unramified | .ramified => true
  | _ => false

/-- Accesses of the kernel: work items write only to their own places. -/
def Own (k : Kernel) (a : Access) : Prop :=
  a.buf = arg k a.param ∧ a.write = a.param.out ∧ (a.write = true → a.place = a.item)

theorem arg_inj {k : Kernel} (hk : k.Sep) {p q : Param} (h : arg k p = arg k q) (ho : p.out = true ∨ q.out = true) :
    p = q := by
  obtain ⟨h1, h2, h3, h4, h5, h6, h7⟩ := hk
  have := h1.symm; have := h2.symm; have := h3.symm; have := h4.symm; have := h5.symm; have := h6.symm; have := h7.symm
  cases p <;> cases q <;> simp_all [arg, Param.out]

theorem no_conflict {k : Kernel} (hk : k.Sep) {a b : Access} (ha : Own k a) (hb : Own k b) : a.conflict b = false := by
  rw [Bool.eq_false_iff]
  intro h
  simp only [Access.conflict, Bool.and_eq_true, beq_iff_eq, Bool.or_eq_true, bne_iff_ne, ne_eq] at h
  obtain ⟨⟨⟨h1, h2⟩, h3⟩, h4⟩ := h
  have hp : a.param = b.param := by
    apply arg_inj hk
    · rw [← ha.1, ← hb.1, h1]
    · rw [← ha.2.1, ← hb.2.1]; exact h3
  have hw : a.write = b.write := by rw [ha.2.1, hb.2.1, hp]
  have h5 : a.write = true := by
    rcases h3 with h | h
    · exact h
    · rw [hw]; exact h
  rcases h4 with h | h
  · apply h
    rw [← ha.2.2 h5, ← hb.2.2 (hw ▸ h5), h2]
  · exact h hp

theorem note_ok {k : Kernel} (hk : k.Sep) {s : State} (hl : ∀ a ∈ s.log, Own k a) {a : Access} (ha : Own k a) :
    note s a = .ok { s with log := a :: s.log } := by
  unfold note
  rw [if_neg]
  intro h
  obtain ⟨b, hb, hc⟩ := List.any_eq_true.1 h
  rw [no_conflict hk ha (hl b hb)] at hc
  cases hc

theorem read_ok {k : Kernel} (hk : k.Sep) {s : State} (hl : ∀ a ∈ s.log, Own k a) (x : Nat) {p : Param}
    (hp : p.out = false) {i a : Nat} {v : List Nat} (hv : s.base.bufs (arg k p) = some v) (ha : rd v i = .ok a) :
    ∃ l, (∀ a ∈ l, Own k a) ∧ read k s x p i = .ok ({ s with log := l }, a) := by
  have ho : Own k ⟨arg k p, i, x, p, false⟩ := ⟨rfl, hp.symm, by simp⟩
  refine ⟨⟨arg k p, i, x, p, false⟩ :: s.log, ?_, ?_⟩
  · intro b hb
    rcases List.mem_cons.1 hb with rfl | hb
    · exact ho
    · exact hl b hb
  · unfold read
    rw [get_eq_ok.2 hv, Res.bind_ok, ha, Res.bind_ok, note_ok hk hl ho]
    rfl

theorem write_ok {k : Kernel} (hk : k.Sep) {s : State} (hl : ∀ a ∈ s.log, Own k a) (x : Nat) {p : Param}
    (hp : p.out = true) {a : Nat} {v : List Nat} (hv : s.base.bufs (arg k p) = some v) (hx : x < v.length) :
    ∃ l, (∀ a ∈ l, Own k a) ∧ write k s x p x a =
      .ok { s with log := l, base := { s.base with bufs := update s.base.bufs (arg k p) (some (v.set x a)) } } := by
  have ho : Own k ⟨arg k p, x, x, p, true⟩ := ⟨rfl, hp.symm, fun _ => rfl⟩
  refine ⟨⟨arg k p, x, x, p, true⟩ :: s.log, ?_, ?_⟩
  · intro b hb
    rcases List.mem_cons.1 hb with rfl | hb
    · exact ho
    · exact hl b hb
  · unfold write
    rw [store_eq_ok.2 ⟨v, hv, hx, rfl⟩, Res.bind_ok, note_ok hk hl ho]
    rfl

/-! ### Evaluation -/

/-- The sum of two elements that are not zero, with exponents `lo` and `hi` (src/opencl/evaluation.cl l.62-67). -/
def plus (ert inc : List Nat) (pred lo hi : Nat) : Res Nat := do
  let tmp2 ← rd inc (u32sub hi lo)
  if tmp2 ≠ pred then do
    let j ← Curve.addI32 lo tmp2
    rd ert j
  else .ok pred

/-- The sum of `f` and `t` (src/opencl/evaluation.cl l.49-68), where `t` has been read. -/
def combine (ert inc : List Nat) (pred f t : Nat) : Res Nat :=
  if f = pred then .ok t
  else if t ≤ f then plus ert inc pred t f
  else plus ert inc pred f t

theorem evalStep_combine (ert inc : List Nat) (pred c xpw f : Nat) : Curve.evalStep Curve.addI32 ert inc pred c xpw f =
    if c ≠ pred then do
      let i ← Curve.addI32 c xpw
      let t ← rd ert i
      combine ert inc pred f t
    else .ok f := by
  unfold Curve.evalStep combine plus
  by_cases hc : c ≠ pred
  · rw [if_pos hc, if_pos hc]
    by_cases hf : f = pred
    · simp only [if_pos hf]
      cases Curve.addI32 c xpw <;> try rfl
      simp only [Res.bind_ok]
      cases rd ert _ <;> rfl
    · simp only [if_neg hf]
      congr 1; funext i
      congr 1; funext t
      by_cases ht : t ≤ f <;> simp only [ht, if_true, if_false] <;> rfl
  · rw [if_neg hc, if_neg hc]; rfl

/-- What a work item still computes. -/
def rest (ert inc cs : List Nat) (pred x : Nat) : Pc → Res Nat
  | .start => Curve.evalKernel ert inc pred cs x
  | .head dx xpw f => Curve.kernelLoop ert inc pred x (cs.drop dx) xpw f
  | .power dx i f => do
    let xpw ← rd ert i
    let c ← rd cs dx
    let f ← Curve.evalStep Curve.addI32 ert inc pred c xpw f
    Curve.kernelLoop ert inc pred x (cs.drop (dx + 1)) xpw f
  | .test dx xpw f => do
    let c ← rd cs dx
    let f ← Curve.evalStep Curve.addI32 ert inc pred c xpw f
    Curve.kernelLoop ert inc pred x (cs.drop (dx + 1)) xpw f
  | .coeff dx xpw f => do
    let c ← rd cs dx
    let i ← Curve.addI32 c xpw
    let t ← rd ert i
    let f ← combine ert inc pred f t
    Curve.kernelLoop ert inc pred x (cs.drop (dx + 1)) xpw f
  | .term dx xpw f i => do
    let t ← rd ert i
    let f ← combine ert inc pred f t
    Curve.kernelLoop ert inc pred x (cs.drop (dx + 1)) xpw f
  | .add dx xpw lo hi => do
    let f ← plus ert inc pred lo hi
    Curve.kernelLoop ert inc pred x (cs.drop (dx + 1)) xpw f
  | .sum dx xpw j => do
    let f ← rd ert j
    Curve.kernelLoop ert inc pred x (cs.drop (dx + 1)) xpw f
  | .put f | .put2 f => .ok f
  | .done => .ub

/-- A bound for the number of steps that a work item still makes. -/
def rank (n : Nat) : Pc → Nat
  | .start => 8 * n + 4
  | .head dx _ _ => 8 * (n - dx) + 3
  | .power dx _ _ => 8 * (n - (dx + 1)) + 9
  | .test dx _ _ => 8 * (n - (dx + 1)) + 8
  | .coeff dx _ _ => 8 * (n - (dx + 1)) + 7
  | .term dx _ _ _ => 8 * (n - (dx + 1)) + 6
  | .add dx _ _ _ => 8 * (n - (dx + 1)) + 5
  | .sum dx _ _ => 8 * (n - (dx + 1)) + 4
  | .put _ => 2
  | .put2 _ => 1
  | .done => 0

/-- Nothing has been written yet. -/
def Pc.before : Pc → Bool
  | .put2 _ | .done => false
  | _ => true

/-- The work item evaluates the polynomial. -/
def Pc.busy : Pc → Bool
  | .put _ | .put2 _ | .done => false
  | _ => true

/-- The buffers that a kernel reads. -/
structure Inputs (k : Kernel) (bufs : Bufs) (ert inc coeffs : List Nat) : Prop where
  c : bufs k.coeffs = some coeffs
  e : bufs k.ert = some ert
  i : bufs k.inc = some inc
  size : k.polySize ≤ coeffs.length

theorem mapM_rd_take {l : List Nat} : ∀ {n : Nat} {r : List Nat}, (List.range n).mapM (fun i => rd l i) = .ok r →
    n ≤ l.length ∧ r = l.take n
  | 0, r, h => by
    cases h
    simp
  | n + 1, r, h => by
    rw [List.range_succ, List.mapM_append] at h
    obtain ⟨r1, h1, h2⟩ := Res.bind_eq_ok.1 h
    obtain ⟨r2, h3, h4⟩ := Res.bind_eq_ok.1 h2
    cases h4
    obtain ⟨h5, rfl⟩ := mapM_rd_take h1
    rw [List.mapM_cons] at h3
    obtain ⟨a, h6, h7⟩ := Res.bind_eq_ok.1 h3
    cases h7
    rw [rd_eq_ok] at h6
    obtain ⟨hn, -⟩ := List.getElem?_eq_some_iff.1 h6
    exact ⟨hn, by rw [List.take_add_one, h6]; rfl⟩

/-- The value of a work item before its first step. -/
theorem rest_of_value {k : Kernel} {bufs : Bufs} {x F : Nat} (h : value k bufs x = .ok F) :
    ∃ ert inc coeffs, Inputs k bufs ert inc coeffs ∧ rest ert inc (coeffs.take k.polySize) k.pred x .start = .ok F := by
  unfold value at h
  simp only [Res.bind_eq_ok, get_eq_ok] at h
  obtain ⟨c, h1, e, h2, i, h3, cs, h4, h5⟩ := h
  obtain ⟨h6, rfl⟩ := mapM_rd_take h4
  exact ⟨e, i, c, ⟨h1, h2, h3, h6⟩, h5⟩

theorem rd_take {l : List Nat} {n i a : Nat} (h : rd (l.take n) i = .ok a) : rd l i = .ok a := by
  rw [rd_eq_ok] at h ⊢
  rw [List.getElem?_take] at h
  split at h
  · exact h
  · cases h

/-- A step of a work item before it writes. -/
theorem busy_step {k : Kernel} (hk : k.Sep) {s : State} {x F : Nat} {ert inc coeffs : List Nat}
    (hi : Inputs k s.base.bufs ert inc coeffs) (hl : ∀ a ∈ s.log, Own k a) (hb : (s.pc x).busy = true)
    (hr : rest ert inc (coeffs.take k.polySize) k.pred x (s.pc x) = .ok F) :
    ∃ l pc, itemStep k x s = .ok (some { base := s.base, pc := update s.pc x pc, log := l }) ∧ (∀ a ∈ l, Own k a) ∧
      pc.before = true ∧ rank k.polySize pc < rank k.polySize (s.pc x) ∧
      rest ert inc (coeffs.take k.polySize) k.pred x pc = .ok F := by
  obtain ⟨hc, he, hn, hs⟩ := hi
  have hlen : (coeffs.take k.polySize).length = k.polySize := by rw [List.length_take, Nat.min_eq_left hs]
  cases hpc : s.pc x with
  | start =>
    rw [hpc] at hr
    obtain ⟨f, h1, h2⟩ := Res.bind_eq_ok.1 hr
    obtain ⟨l, h3, h4⟩ := read_ok hk hl x (p := .coeffs) rfl hc (rd_take h1)
    refine ⟨l, .head 1 0 f, ?_, h3, rfl, ?_, ?_⟩
    · unfold itemStep
      rw [hpc]
      show (read k s x .coeffs 0 >>= _) = _
      rw [h4]; rfl
    · simp only [rank]; omega
    · rw [← h2, ← List.drop_one]; rfl
  | head dx xpw f =>
    rw [hpc] at hr
    replace hr : Curve.kernelLoop ert inc k.pred x ((coeffs.take k.polySize).drop dx) xpw f = .ok F := hr
    by_cases hd : dx < k.polySize
    · rw [List.drop_eq_getElem_cons (by omega)] at hr
      obtain ⟨i, h1, h2⟩ := Res.bind_eq_ok.1 hr
      refine ⟨s.log, .power dx i f, ?_, hl, rfl, ?_, ?_⟩
      · unfold itemStep
        rw [hpc]
        show (if dx < k.polySize then _ else _) = _
        rw [if_pos hd, h1]; rfl
      · simp only [rank]; omega
      · obtain ⟨xpw', h3, h4⟩ := Res.bind_eq_ok.1 h2
        simp only [rest]
        rw [h3, Res.bind_ok, rd_eq_ok.2 (List.getElem?_eq_getElem (by omega)), Res.bind_ok]
        exact h4
    · rw [List.drop_eq_nil_of_le (by omega)] at hr
      cases hr
      refine ⟨s.log, .put F, ?_, hl, rfl, ?_, rfl⟩
      · unfold itemStep
        rw [hpc]
        show (if dx < k.polySize then _ else _) = _
        rw [if_neg hd]; rfl
      · simp only [rank]; omega
  | power dx i f =>
    rw [hpc] at hr
    obtain ⟨a, h1, h2⟩ := Res.bind_eq_ok.1 hr
    obtain ⟨l, h3, h4⟩ := read_ok hk hl x (p := .ert) rfl he h1
    refine ⟨l, .test dx a f, ?_, h3, rfl, by simp only [rank]; omega, h2⟩
    unfold itemStep
    rw [hpc]
    show (read k s x .ert i >>= _) = _
    rw [h4]; rfl
  | test dx xpw f =>
    rw [hpc] at hr
    obtain ⟨c, h1, h2⟩ := Res.bind_eq_ok.1 hr
    obtain ⟨l, h3, h4⟩ := read_ok hk hl x (p := .coeffs) rfl hc (rd_take h1)
    refine ⟨l, if c ≠ k.pred then .coeff dx xpw f else .head (dx + 1) xpw f, ?_, h3, ?_, ?_, ?_⟩
    · unfold itemStep
      rw [hpc]
      show (read k s x .coeffs dx >>= _) = _
      rw [h4]; rfl
    · split <;> rfl
    · split <;> simp only [rank] <;> omega
    · obtain ⟨g, h5, h6⟩ := Res.bind_eq_ok.1 h2
      rw [evalStep_combine] at h5
      split at h5
      · rw [if_pos (by assumption)]
        obtain ⟨i, h7, h8⟩ := Res.bind_eq_ok.1 h5
        obtain ⟨t, h9, h10⟩ := Res.bind_eq_ok.1 h8
        simp only [rest]
        rw [h1, Res.bind_ok, h7, Res.bind_ok, h9, Res.bind_ok, h10, Res.bind_ok]
        exact h6
      · rw [if_neg (by assumption)]
        cases h5
        exact h6
  | coeff dx xpw f =>
    rw [hpc] at hr
    obtain ⟨c, h1, h2⟩ := Res.bind_eq_ok.1 hr
    obtain ⟨i, h5, h6⟩ := Res.bind_eq_ok.1 h2
    obtain ⟨l, h3, h4⟩ := read_ok hk hl x (p := .coeffs) rfl hc (rd_take h1)
    refine ⟨l, .term dx xpw f i, ?_, h3, rfl, by simp only [rank]; omega, h6⟩
    unfold itemStep
    rw [hpc]
    show (read k s x .coeffs dx >>= _) = _
    rw [h4]
    show (Curve.addI32 c xpw >>= _) = _
    rw [h5]; rfl
  | term dx xpw f i =>
    rw [hpc] at hr
    obtain ⟨t, h1, h2⟩ := Res.bind_eq_ok.1 hr
    obtain ⟨l, h3, h4⟩ := read_ok hk hl x (p := .ert) rfl he h1
    refine ⟨l, if f = k.pred then .head (dx + 1) xpw t else if t ≤ f then .add dx xpw t f else .add dx xpw f t, ?_, h3,
      ?_, ?_, ?_⟩
    · unfold itemStep
      rw [hpc]
      show (read k s x .ert i >>= _) = _
      rw [h4]; rfl
    · split
      · rfl
      · split <;> rfl
    · split
      · simp only [rank]; omega
      · split <;> simp only [rank] <;> omega
    · unfold combine at h2
      split
      · rw [if_pos (by assumption)] at h2
        exact h2
      · rw [if_neg (by assumption)] at h2
        split
        · rw [if_pos (by assumption)] at h2
          exact h2
        · rw [if_neg (by assumption)] at h2
          exact h2
  | add dx xpw lo hi =>
    rw [hpc] at hr
    obtain ⟨g, h2, h6⟩ := Res.bind_eq_ok.1 hr
    obtain ⟨t2, h1, h5⟩ := Res.bind_eq_ok.1 h2
    obtain ⟨l, h3, h4⟩ := read_ok hk hl x (p := .inc) rfl hn h1
    by_cases ht : t2 ≠ k.pred
    · rw [if_pos ht] at h5
      obtain ⟨j, h7, h8⟩ := Res.bind_eq_ok.1 h5
      refine ⟨l, .sum dx xpw j, ?_, h3, rfl, by simp only [rank]; omega, ?_⟩
      · unfold itemStep
        rw [hpc]
        show (read k s x .inc _ >>= _) = _
        rw [h4]
        show (if t2 ≠ k.pred then _ else _) = _
        rw [if_pos ht, h7]; rfl
      · simp only [rest]
        rw [h8]
        exact h6
    · rw [if_neg ht] at h5
      cases h5
      refine ⟨l, .head (dx + 1) xpw k.pred, ?_, h3, rfl, by simp only [rank]; omega, h6⟩
      unfold itemStep
      rw [hpc]
      show (read k s x .inc _ >>= _) = _
      rw [h4]
      show (if t2 ≠ k.pred then _ else _) = _
      rw [if_neg ht]; rfl
  | sum dx xpw j =>
    rw [hpc] at hr
    obtain ⟨f, h1, h2⟩ := Res.bind_eq_ok.1 hr
    obtain ⟨l, h3, h4⟩ := read_ok hk hl x (p := .ert) rfl he h1
    refine ⟨l, .head (dx + 1) xpw f, ?_, h3, rfl, by simp only [rank]; omega, h2⟩
    unfold itemStep
    rw [hpc]
    show (read k s x .ert j >>= _) = _
    rw [h4]; rfl
  | put f => rw [hpc] at hb; cases hb
  | put2 f => rw [hpc] at hb; cases hb
  | done => rw [hpc] at hb; cases hb

end Items
end Hycu
