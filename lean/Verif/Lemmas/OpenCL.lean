import Mathlib.Data.List.Nodup
import Verif.Spec.OpenCL

/-!
The asynchronous machine does the same as one that carries out every command at once.
-/

namespace Hycu
namespace OpenCL

open Function

/-! ### Work items -/

/-- The buffers that a kernel reads are not those that it writes. -/
structure Kernel.Sep (k : Kernel) : Prop where
  c1 : k.coeffs ≠ k.unramified
  c2 : k.coeffs ≠ k.ramified
  e1 : k.ert ≠ k.unramified
  e2 : k.ert ≠ k.ramified
  i1 : k.inc ≠ k.unramified
  i2 : k.inc ≠ k.ramified
  out : k.unramified ≠ k.ramified

theorem get_eq_ok {bufs : Bufs} {b : Buf} {v : List Nat} : get bufs b = .ok v ↔ bufs b = some v := by
  unfold get
  cases bufs b <;> simp

/-- The value of the polynomial for a work item. -/
def value (k : Kernel) (bufs : Bufs) (x : Nat) : Res Nat := do
  let coeffs ← get bufs k.coeffs
  let ert ← get bufs k.ert
  let inc ← get bufs k.inc
  let cs ← (List.range k.polySize).mapM fun i => rd coeffs i
  Curve.evalKernel ert inc k.pred cs x

theorem value_congr {k : Kernel} {bufs bufs' : Bufs} (h1 : bufs k.coeffs = bufs' k.coeffs)
    (h2 : bufs k.ert = bufs' k.ert) (h3 : bufs k.inc = bufs' k.inc) (x : Nat) : value k bufs x = value k bufs' x := by
  unfold value get
  rw [h1, h2, h3]

theorem store_eq_ok {bufs bufs' : Bufs} {b : Buf} {i x : Nat} : store bufs b i x = .ok bufs' ↔
    ∃ v, bufs b = some v ∧ i < v.length ∧ bufs' = update bufs b (some (v.set i x)) := by
  unfold store
  simp only [Res.bind_eq_ok, get_eq_ok]
  constructor
  · rintro ⟨v, h1, h2⟩
    split at h2
    · exact ⟨v, h1, by assumption, (Res.ok.inj h2).symm⟩
    · cases h2
  · rintro ⟨v, h1, h2, rfl⟩
    exact ⟨v, h1, if_pos h2⟩

theorem item_eq (k : Kernel) (bufs : Bufs) (x : Nat) : item k bufs x =
    value k bufs x >>= fun f => store bufs k.unramified x (Curve.kernelOut k.pred f).1 >>= fun bufs =>
      store bufs k.ramified x (Curve.kernelOut k.pred f).2 := by
  simp only [item, value, bind_assoc]

theorem item_eq_ok {k : Kernel} (hk : k.Sep) {bufs bufs' : Bufs} {x : Nat} : item k bufs x = .ok bufs' ↔
    ∃ f u r, value k bufs x = .ok f ∧ bufs k.unramified = some u ∧ bufs k.ramified = some r ∧ x < u.length ∧
      x < r.length ∧ bufs' = update (update bufs k.unramified (some (u.set x (Curve.kernelOut k.pred f).1))) k.ramified
        (some (r.set x (Curve.kernelOut k.pred f).2)) := by
  rw [item_eq]
  simp only [Res.bind_eq_ok, store_eq_ok]
  constructor
  · rintro ⟨f, h1, _, ⟨u, h2, h3, rfl⟩, r, h4, h5, rfl⟩
    rw [update_of_ne hk.out.symm] at h4
    exact ⟨f, u, r, h1, h2, h4, h3, h5, rfl⟩
  · rintro ⟨f, u, r, h1, h2, h4, h3, h5, rfl⟩
    exact ⟨f, h1, _, ⟨u, h2, h3, rfl⟩, r, by rw [update_of_ne hk.out.symm]; exact h4, h5, rfl⟩

theorem item_inputs {k : Kernel} (hk : k.Sep) {bufs bufs' : Bufs} {x : Nat} (h : item k bufs x = .ok bufs') (y : Nat) :
    value k bufs' y = value k bufs y := by
  obtain ⟨f, u, r, _, _, _, _, _, rfl⟩ := (item_eq_ok hk).1 h
  apply value_congr
  · rw [update_of_ne hk.c2, update_of_ne hk.c1]
  · rw [update_of_ne hk.e2, update_of_ne hk.e1]
  · rw [update_of_ne hk.i2, update_of_ne hk.i1]

/-- Two work items may be exchanged. -/
theorem item_swap {k : Kernel} (hk : k.Sep) {b b1 b2 : Bufs} {x y : Nat} (hxy : x ≠ y) (h1 : item k b x = .ok b1)
    (h2 : item k b1 y = .ok b2) : ∃ b1', item k b y = .ok b1' ∧ item k b1' x = .ok b2 := by
  have hv := item_inputs hk h1 y
  obtain ⟨f, u, r, e1, e2, e3, e4, e5, rfl⟩ := (item_eq_ok hk).1 h1
  obtain ⟨g, u', r', d1, d2, d3, d4, d5, rfl⟩ := (item_eq_ok hk).1 h2
  rw [update_of_ne hk.out, update_self] at d2
  rw [update_self] at d3
  cases d2
  cases d3
  rw [List.length_set] at d4 d5
  rw [hv] at d1
  have h3 : item k b y = .ok _ := (item_eq_ok hk).2 ⟨g, u, r, d1, e2, e3, d4, d5, rfl⟩
  refine ⟨_, h3, (item_eq_ok hk).2 ⟨f, u.set y (Curve.kernelOut k.pred g).1, r.set y (Curve.kernelOut k.pred g).2, ?_, ?_, ?_, ?_, ?_, ?_⟩⟩
  · rw [item_inputs hk h3]; exact e1
  · rw [update_of_ne hk.out, update_self]
  · rw [update_self]
  · rw [List.length_set]; exact e4
  · rw [List.length_set]; exact e5
  · rw [List.set_comm _ _ hxy, List.set_comm _ _ hxy]
    funext z
    by_cases hz : z = k.ramified
    · subst hz; rw [update_self, update_self]
    · rw [update_of_ne hz, update_of_ne hz]
      by_cases hz' : z = k.unramified
      · subst hz'; rw [update_self, update_self]
      · rw [update_of_ne hz', update_of_ne hz', update_of_ne hz, update_of_ne hz, update_of_ne hz', update_of_ne hz']

/-- Any work item may be the first one. -/
theorem items_pick {k : Kernel} (hk : k.Sep) : ∀ {items : List Nat} {b b' : Bufs} {i x : Nat}, items.Nodup →
    items.foldlM (item k) b = .ok b' → items[i]? = some x →
    ∃ b1, item k b x = .ok b1 ∧ (items.eraseIdx i).foldlM (item k) b1 = .ok b'
  | [], _, _, _, _, _, _, h => by simp at h
  | y :: ys, b, b', 0, x, _, h1, h2 => by
    simp only [List.getElem?_cons_zero, Option.some.injEq] at h2
    subst h2
    rw [List.foldlM_cons, Res.bind_eq_ok] at h1
    exact h1
  | y :: ys, b, b', i + 1, x, hn, h1, h2 => by
    rw [List.foldlM_cons, Res.bind_eq_ok] at h1
    obtain ⟨c, h3, h4⟩ := h1
    rw [List.getElem?_cons_succ] at h2
    obtain ⟨hy, hn⟩ := List.nodup_cons.1 hn
    obtain ⟨c1, h5, h6⟩ := items_pick hk hn h4 h2
    have hne : y ≠ x := fun h => hy (h ▸ List.mem_of_getElem? h2)
    obtain ⟨d, h7, h8⟩ := item_swap hk hne h3 h5
    refine ⟨d, h7, ?_⟩
    rw [List.eraseIdx_cons_succ, List.foldlM_cons, h8]
    exact h6

/-! ### Commands at once -/

/-- A command that is carried out at once. -/
def exec (heap : Heap) (bufs : Bufs) : Cmd → Res Bufs
  | .write b a n => transfer heap bufs b a n
  | .kernel k items => items.foldlM (item k) bufs

/-- All commands of the queue. -/
def flush (heap : Heap) (bufs : Bufs) (q : List Cmd) : Res Bufs := q.foldlM (exec heap) bufs

/-- A command that reads memory of the host. -/
def Cmd.src : Cmd → Option Addr
  | .write _ a _ => some a
  | .kernel _ _ => none

theorem transfer_eq_ok {heap : Heap} {bufs bufs' : Bufs} {b : Buf} {a : Addr} {n : Nat} :
    transfer heap bufs b a n = .ok bufs' ↔ ∃ v w, heap a = some v ∧ bufs b = some w ∧ n ≤ v.length ∧
      bufs' = update bufs b (some (v.take n ++ w.drop n)) := by
  unfold transfer
  cases h : heap a with
  | none => simp
  | some v =>
    simp only [Res.bind_ok, Res.bind_eq_ok, get_eq_ok]
    constructor
    · rintro ⟨w, h1, h2⟩
      split at h2
      · exact ⟨v, w, rfl, h1, by assumption, (Res.ok.inj h2).symm⟩
      · cases h2
    · rintro ⟨v', w, h0, h1, h2, rfl⟩
      cases h0
      exact ⟨w, h1, if_pos h2⟩

theorem exec_congr {heap heap' : Heap} {c : Cmd} (h : ∀ a, c.src = some a → heap a = heap' a) (bufs : Bufs) :
    exec heap bufs c = exec heap' bufs c := by
  cases c with
  | write b a n => simp only [exec, transfer, h a rfl]
  | kernel k items => rfl

theorem flush_congr {heap heap' : Heap} : ∀ {q : List Cmd} (bufs : Bufs),
    (∀ c ∈ q, ∀ a, c.src = some a → heap a = heap' a) → flush heap bufs q = flush heap' bufs q
  | [], _, _ => rfl
  | c :: q, bufs, h => by
    unfold flush
    rw [List.foldlM_cons, List.foldlM_cons, exec_congr (h c List.mem_cons_self)]
    congr 1
    funext b
    exact flush_congr b fun c hc => h c (List.mem_cons_of_mem _ hc)

/-- Buffers that exist keep their lengths, no new buffers. -/
def SameShape (bufs bufs' : Bufs) : Prop := ∀ b, (bufs b).map List.length = (bufs' b).map List.length

theorem SameShape.trans {b1 b2 b3 : Bufs} (h1 : SameShape b1 b2) (h2 : SameShape b2 b3) : SameShape b1 b3 :=
  fun b => (h1 b).trans (h2 b)

theorem sameShape_update {bufs : Bufs} {b : Buf} {v w : List Nat} (h : bufs b = some v) (hl : w.length = v.length) :
    SameShape bufs (update bufs b (some w)) := by
  intro b'
  by_cases hb : b' = b
  · subst hb; rw [update_self, h]; simp [hl]
  · rw [update_of_ne hb]

/-- Sizes of the transfers in a queue. -/
def Fits (bufs : Bufs) : Cmd → Prop
  | .write b _ n => ∃ v, bufs b = some v ∧ n ≤ v.length
  | .kernel k items => k.Sep ∧ items.Nodup

theorem Fits.mono {bufs bufs' : Bufs} (h : SameShape bufs bufs') {c : Cmd} (hc : Fits bufs c) : Fits bufs' c := by
  cases c with
  | write b a n =>
    obtain ⟨v, h1, h2⟩ := hc
    have := h b
    rw [h1] at this
    cases h3 : bufs' b with
    | none => rw [h3] at this; cases this
    | some w =>
      rw [h3] at this
      simp only [Option.map_some, Option.some.injEq] at this
      exact ⟨w, h3 ▸ rfl, by omega⟩
  | kernel k items => exact hc

theorem item_shape {k : Kernel} (hk : k.Sep) {bufs bufs' : Bufs} {x : Nat} (h : item k bufs x = .ok bufs') :
    SameShape bufs bufs' := by
  obtain ⟨f, u, r, _, h2, h3, _, _, rfl⟩ := (item_eq_ok hk).1 h
  refine (sameShape_update h2 (w := u.set x (Curve.kernelOut k.pred f).1) (by simp)).trans
    (sameShape_update (v := r) ?_ (by simp))
  rw [update_of_ne hk.out.symm]; exact h3

theorem items_shape {k : Kernel} (hk : k.Sep) : ∀ {items : List Nat} {bufs bufs' : Bufs},
    items.foldlM (item k) bufs = .ok bufs' → SameShape bufs bufs'
  | [], bufs, bufs', h => by
    cases h
    intro b; rfl
  | x :: xs, bufs, bufs', h => by
    rw [List.foldlM_cons, Res.bind_eq_ok] at h
    obtain ⟨b1, h1, h2⟩ := h
    exact (item_shape hk h1).trans (items_shape hk h2)

theorem exec_shape {heap : Heap} {bufs bufs' : Bufs} {c : Cmd} (hc : Fits bufs c) (h : exec heap bufs c = .ok bufs') :
    SameShape bufs bufs' := by
  cases c with
  | write b a n =>
    obtain ⟨v, w, _, h2, h3, rfl⟩ := transfer_eq_ok.1 h
    obtain ⟨w', h4, h5⟩ := hc
    rw [h2] at h4
    cases h4
    exact sameShape_update h2 (by simp; omega)
  | kernel k items => exact items_shape hc.1 h

theorem flush_shape {heap : Heap} : ∀ {q : List Cmd} {bufs bufs' : Bufs}, (∀ c ∈ q, Fits bufs c) →
    flush heap bufs q = .ok bufs' → SameShape bufs bufs'
  | [], bufs, bufs', _, h => by
    cases h
    intro b; rfl
  | c :: q, bufs, bufs', hq, h => by
    unfold flush at h
    rw [List.foldlM_cons, Res.bind_eq_ok] at h
    obtain ⟨b1, h1, h2⟩ := h
    have := exec_shape (hq c List.mem_cons_self) h1
    exact this.trans (flush_shape (fun c hc => (hq c (List.mem_cons_of_mem _ hc)).mono this) h2)

/-! ### New buffers -/

theorem value_none {k : Kernel} {bufs : Bufs} {x f : Nat} (h : value k bufs x = .ok f) :
    bufs k.coeffs ≠ none ∧ bufs k.ert ≠ none ∧ bufs k.inc ≠ none := by
  unfold value at h
  simp only [Res.bind_eq_ok, get_eq_ok] at h
  obtain ⟨_, h1, _, h2, _, h3, _⟩ := h
  rw [h1, h2, h3]
  simp

theorem item_frame {k : Kernel} (hk : k.Sep) {bufs bufs' : Bufs} {x : Nat} {b : Buf} {v : List Nat}
    (hb : bufs b = none) (h : item k bufs x = .ok bufs') :
    item k (update bufs b (some v)) x = .ok (update bufs' b (some v)) := by
  obtain ⟨f, u, r, h1, h2, h3, h4, h5, rfl⟩ := (item_eq_ok hk).1 h
  obtain ⟨n1, n2, n3⟩ := value_none h1
  have ne : ∀ c, bufs c ≠ none → c ≠ b := fun c hc e => hc (e ▸ hb)
  have nu := ne k.unramified (by rw [h2]; simp)
  have nr := ne k.ramified (by rw [h3]; simp)
  refine (item_eq_ok hk).2 ⟨f, u, r, ?_, ?_, ?_, h4, h5, ?_⟩
  · rw [← h1]
    apply value_congr
    · rw [update_of_ne (ne _ n1)]
    · rw [update_of_ne (ne _ n2)]
    · rw [update_of_ne (ne _ n3)]
  · rw [update_of_ne nu]; exact h2
  · rw [update_of_ne nr]; exact h3
  · rw [update_comm nr, update_comm nu]

theorem items_frame {k : Kernel} (hk : k.Sep) {b : Buf} {v : List Nat} : ∀ {items : List Nat} {bufs bufs' : Bufs},
    bufs b = none → items.foldlM (item k) bufs = .ok bufs' →
    items.foldlM (item k) (update bufs b (some v)) = .ok (update bufs' b (some v))
  | [], bufs, bufs', _, h => by
    cases h; rfl
  | x :: xs, bufs, bufs', hb, h => by
    rw [List.foldlM_cons, Res.bind_eq_ok] at h
    obtain ⟨b1, h1, h2⟩ := h
    rw [List.foldlM_cons, item_frame hk hb h1]
    refine items_frame hk ?_ h2
    have := item_shape hk h1 b
    rw [hb] at this
    simpa using this.symm

theorem exec_frame {heap : Heap} {bufs bufs' : Bufs} {c : Cmd} {b : Buf} {v : List Nat} (hc : Fits bufs c)
    (hb : bufs b = none) (h : exec heap bufs c = .ok bufs') :
    exec heap (update bufs b (some v)) c = .ok (update bufs' b (some v)) := by
  cases c with
  | write b' a n =>
    obtain ⟨v', w, h1, h2, h3, rfl⟩ := transfer_eq_ok.1 h
    have ne : b' ≠ b := fun e => by rw [e, hb] at h2; cases h2
    exact transfer_eq_ok.2 ⟨v', w, h1, by rw [update_of_ne ne]; exact h2, h3, by rw [update_comm ne]⟩
  | kernel k items => exact items_frame hc.1 hb h

theorem flush_frame {heap : Heap} {b : Buf} {v : List Nat} : ∀ {q : List Cmd} {bufs bufs' : Bufs},
    (∀ c ∈ q, Fits bufs c) → bufs b = none → flush heap bufs q = .ok bufs' →
    flush heap (update bufs b (some v)) q = .ok (update bufs' b (some v))
  | [], bufs, bufs', _, _, h => by
    cases h; rfl
  | c :: q, bufs, bufs', hq, hb, h => by
    unfold flush at h ⊢
    rw [List.foldlM_cons, Res.bind_eq_ok] at h
    obtain ⟨b1, h1, h2⟩ := h
    have hs := exec_shape (hq c List.mem_cons_self) h1
    rw [List.foldlM_cons, exec_frame (hq c List.mem_cons_self) hb h1]
    refine flush_frame (fun c hc => (hq c (List.mem_cons_of_mem _ hc)).mono hs) ?_ h2
    have := hs b
    rw [hb] at this
    simpa using this.symm

end OpenCL
end Hycu
