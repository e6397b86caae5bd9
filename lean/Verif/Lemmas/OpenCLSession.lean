import Verif.Lemmas.OpenCLSync
import Verif.Lemmas.Count

/-!
What the machine does for tables and counts if commands are carried out at once.
-/

namespace Hycu
namespace OpenCL

open Function

theorem mapM_exists {α β : Type} {f : α → Res β} : ∀ {l : List α} {r : List β}, l.mapM f = .ok r →
    ∀ x ∈ l, ∃ y, f x = .ok y
  | a :: l, r, h, x, hx => by
    rw [List.mapM_cons] at h
    obtain ⟨y, h1, h2⟩ := Res.bind_eq_ok.1 h
    obtain ⟨ys, h3, _⟩ := Res.bind_eq_ok.1 h2
    rcases List.mem_cons.1 hx with rfl | hx
    · exact ⟨y, h1⟩
    · exact mapM_exists h3 x hx

theorem set_next (g : Nat → Nat) (u : List Nat) {m : Nat} (h : m < u.length) (y : Nat) (hy : y = g m) :
    ((List.range m).map g ++ u.drop m).set m y = (List.range (m + 1)).map g ++ u.drop (m + 1) := by
  subst hy
  rw [List.set_append_right _ _ (by simp)]
  simp only [List.length_map, List.length_range, Nat.sub_self]
  rw [List.drop_eq_getElem_cons h, List.set_cons_zero, List.range_succ]
  simp

/-- The work items of a kernel in their order. -/
theorem kernel_run {k : Kernel} (hk : k.Sep) {b : Bufs} {f : Nat → Nat} {u r : List Nat} {N : Nat}
    (hv : ∀ x, x < N → value k b x = .ok (f x)) (hu : b k.unramified = some u) (hr : b k.ramified = some r)
    (lu : u.length = N) (lr : r.length = N) : ∀ {m : Nat}, m ≤ N → (List.range m).foldlM (item k) b =
      .ok (update (update b k.unramified
          (some ((List.range m).map (fun x => (Curve.kernelOut k.pred (f x)).1) ++ u.drop m))) k.ramified
        (some ((List.range m).map (fun x => (Curve.kernelOut k.pred (f x)).2) ++ r.drop m)))
  | 0, _ => by
    show Res.ok b = _
    congr 1
    funext z
    by_cases hz : z = k.ramified
    · subst hz; simp [hr]
    · rw [update_of_ne hz]
      by_cases hz' : z = k.unramified
      · subst hz'; simp [hu]
      · rw [update_of_ne hz']
  | m + 1, hm => by
    rw [List.range_succ, List.foldlM_append, kernel_run hk hv hu hr lu lr (by omega), Res.bind_ok, List.foldlM_cons]
    simp only [List.foldlM_nil]
    set b1 := update (update b k.unramified
          (some ((List.range m).map (fun x => (Curve.kernelOut k.pred (f x)).1) ++ u.drop m))) k.ramified
        (some ((List.range m).map (fun x => (Curve.kernelOut k.pred (f x)).2) ++ r.drop m)) with hb1
    have hval : value k b1 m = .ok (f m) := by
      rw [← hv m (by omega)]
      apply value_congr
      · rw [hb1, update_of_ne hk.c2, update_of_ne hk.c1]
      · rw [hb1, update_of_ne hk.e2, update_of_ne hk.e1]
      · rw [hb1, update_of_ne hk.i2, update_of_ne hk.i1]
    have h1 := (item_eq_ok hk (bufs := b1) (x := m)).2 ⟨f m, _, _, hval, by rw [hb1, update_of_ne hk.out, update_self],
      by rw [hb1, update_self], by simp; omega, by simp; omega, rfl⟩
    rw [h1, Res.bind_ok, ← List.range_succ]
    show Res.ok _ = _
    congr 1
    rw [set_next _ u (by omega) _ rfl, set_next _ r (by omega) _ rfl, hb1]
    funext z
    by_cases hz : z = k.ramified
    · subst hz; rw [update_self, update_self]
    · rw [update_of_ne hz, update_of_ne hz]
      by_cases hz' : z = k.unramified
      · subst hz'; rw [update_self, update_self]
      · rw [update_of_ne hz', update_of_ne hz', update_of_ne hz, update_of_ne hz']

/-- The whole kernel. -/
theorem kernel_all {k : Kernel} (hk : k.Sep) {b : Bufs} {f : Nat → Nat} {u r : List Nat} {N : Nat}
    (hv : ∀ x, x < N → value k b x = .ok (f x)) (hu : b k.unramified = some u) (hr : b k.ramified = some r)
    (lu : u.length = N) (lr : r.length = N) : (List.range N).foldlM (item k) b =
      .ok (update (update b k.unramified (some ((List.range N).map fun x => (Curve.kernelOut k.pred (f x)).1))) k.ramified
        (some ((List.range N).map fun x => (Curve.kernelOut k.pred (f x)).2))) := by
  rw [kernel_run hk hv hu hr lu lr le_rfl, List.drop_of_length_le (by omega), List.drop_of_length_le (by omega)]
  simp

theorem kernelFor_sep (rt : ReductionTable) (t d : Nat) : (kernelFor rt t d).Sep := by
  constructor <;> simp [kernelFor]

theorem mapM_rd (l : List Nat) : (List.range l.length).mapM (fun i => rd l i) = .ok l := by
  rw [mapM_ok (h := fun i => l[i]?.getD 0) _ (fun i hi => by
    have := List.mem_range.1 hi
    rw [rd_of_lt this, List.getElem?_eq_getElem this]; rfl)]
  congr 1
  apply List.ext_getElem?
  intro i
  rw [List.getElem?_map]
  rcases Nat.lt_or_ge i l.length with h | h
  · simp [h]
  · simp [h]

/-- What is known between two events. -/
structure Sess (rts : Nat → ReductionTable) (used live : List Nat) (kernels : List (Nat × Nat)) (H : Heap) (B : Bufs) :
    Prop where
  sub : ∀ t ∈ live, t ∈ used
  arg : H .arg = none
  newHeap : ∀ t, t ∉ used → H (.ert t) = none ∧ H (.inc t) = none
  newBufs : ∀ t, t ∉ used → B (.ert t) = none ∧ B (.inc t) = none ∧ B (.unramified t) = none ∧
    B (.ramified t) = none
  liveHeap : ∀ t ∈ live, (H (.ert t)).isSome ∧ (H (.inc t)).isSome
  ert : ∀ t ∈ live, B (.ert t) = some (rts t).exponentReductionTable
  inc : ∀ t ∈ live, B (.inc t) = some (rts t).incrementationTable
  unr : ∀ t ∈ live, ∃ u, B (.unramified t) = some u ∧ u.length = (rts t).primePowerPred
  ram : ∀ t ∈ live, ∃ u, B (.ramified t) = some u ∧ u.length = (rts t).primePowerPred
  old : ∀ t d, (t, d) ∈ kernels → ∃ v, B (.coeffs t d) = some v ∧ v.length = d + 1
  fresh : ∀ t d, (t, d) ∉ kernels → B (.coeffs t d) = none

theorem doOps_cons {junk : Buf → Nat → Nat} {n : Now} {op : Op} {r : List Op} :
    doOps junk n (op :: r) = doOp junk n op >>= fun n => doOps junk n r := by
  unfold doOps; rw [List.foldlM_cons]

theorem doOps_append {junk : Buf → Nat → Nat} {n : Now} {r r' : List Op} :
    doOps junk n (r ++ r') = doOps junk n r >>= fun n => doOps junk n r' := by
  unfold doOps; rw [List.foldlM_append]

theorem doOp_alloc {junk : Buf → Nat → Nat} {H : Heap} {B : Bufs} {O : List (List Nat)} {a : Addr} {v : List Nat}
    (h : H a = none) : doOp junk ⟨H, B, O⟩ (.alloc a v) = .ok ⟨update H a (some v), B, O⟩ := by
  simp [doOp, h]

theorem doOp_free {junk : Buf → Nat → Nat} {H : Heap} {B : Bufs} {O : List (List Nat)} {a : Addr}
    (h : (H a).isSome) : doOp junk ⟨H, B, O⟩ (.free a) = .ok ⟨update H a none, B, O⟩ := by
  simp [doOp, h]

theorem doOp_create {junk : Buf → Nat → Nat} {H : Heap} {B : Bufs} {O : List (List Nat)} {b : Buf} {m : Nat}
    (h : B b = none) :
    doOp junk ⟨H, B, O⟩ (.create b m) = .ok ⟨H, update B b (some ((List.range m).map (junk b))), O⟩ := by
  simp [doOp, h]

theorem doOp_write {junk : Buf → Nat → Nat} {H : Heap} {B : Bufs} {O : List (List Nat)} {b : Buf} {a : Addr}
    {v w : List Nat} (h1 : H a = some v) (h2 : B b = some w) (h3 : w.length = v.length) :
    doOp junk ⟨H, B, O⟩ (.enqueue (.write b a v.length)) = .ok ⟨H, update B b (some v), O⟩ := by
  simp [doOp, check, exec, transfer, get, h1, h2, h3, List.drop_of_length_le h3.le]

theorem doOp_read {junk : Buf → Nat → Nat} {H : Heap} {B : Bufs} {O : List (List Nat)} {b : Buf} {v : List Nat} {m : Nat}
    (h : B b = some v) (hm : v.length = m) : doOp junk ⟨H, B, O⟩ (.read b m) = .ok ⟨H, B, O ++ [v]⟩ := by
  subst hm
  simp [doOp, get, h]

theorem doOp_kernel {junk : Buf → Nat → Nat} {H : Heap} {B : Bufs} {O : List (List Nat)} {k : Kernel} (hk : k.Sep)
    {f : Nat → Nat} {u r cs e i : List Nat} {N : Nat} (hc : B k.coeffs = some cs) (he : B k.ert = some e)
    (hi : B k.inc = some i) (hp : k.polySize = cs.length)
    (hv : ∀ x, x < N → Curve.evalKernel e i k.pred cs x = .ok (f x))
    (hu : B k.unramified = some u) (hr : B k.ramified = some r) (lu : u.length = N) (lr : r.length = N) :
    doOp junk ⟨H, B, O⟩ (.enqueue (.kernel k (List.range N))) = .ok ⟨H,
      update (update B k.unramified (some ((List.range N).map fun x => (Curve.kernelOut k.pred (f x)).1))) k.ramified
        (some ((List.range N).map fun x => (Curve.kernelOut k.pred (f x)).2)), O⟩ := by
  have hval : ∀ x, x < N → value k B x = .ok (f x) := by
    intro x hx
    unfold value
    rw [get_eq_ok.2 hc, get_eq_ok.2 he, get_eq_ok.2 hi, hp]
    simp only [Res.bind_ok, mapM_rd]
    exact hv x hx
  have := kernel_all hk hval hu hr lu lr
  simp only [doOp, check, exec, get_eq_ok.2 hc, get_eq_ok.2 he, get_eq_ok.2 hi, get_eq_ok.2 hu, get_eq_ok.2 hr, Res.bind_ok,
    this]

/-- Making a table. -/
theorem sess_table {junk : Buf → Nat → Nat} {rts : Nat → ReductionTable} {used live : List Nat}
    {kernels : List (Nat × Nat)} {H : Heap} {B : Bufs} {O : List (List Nat)}
    (h : Sess rts used live kernels H B) {t : Nat} (ht : t ∉ used) :
    ∃ H' B', doOps junk ⟨H, B, O⟩ ((Event.table t false).ops rts kernels) = .ok ⟨H', B', O⟩ ∧
      Sess rts (t :: used) (t :: live) kernels H' B' := by
  obtain ⟨a1, a2⟩ := h.newHeap t ht
  obtain ⟨b1, b2, b3, b4⟩ := h.newBufs t ht
  have hlive : ∀ t' ∈ live, t' ≠ t := fun t' h' e => ht (e ▸ h.sub t' h')
  simp only [Event.ops, Bool.false_eq_true, if_false, List.cons_append, List.nil_append]
  rw [doOps_cons, doOp_alloc a1, Res.bind_ok, doOps_cons, doOp_alloc (by simp [a2]), Res.bind_ok,
    doOps_cons, doOp_create b1, Res.bind_ok, doOps_cons, doOp_create (by simp [b2]), Res.bind_ok,
    doOps_cons, doOp_create (by simp [b3]), Res.bind_ok, doOps_cons, doOp_create (by simp [b4]), Res.bind_ok,
    doOps_cons, doOp_write (v := (rts t).exponentReductionTable)
      (w := (List.range (rts t).exponentReductionTable.length).map (junk (.ert t))) (by simp) (by simp) (by simp), Res.bind_ok,
    doOps_cons, doOp_write (v := (rts t).incrementationTable)
      (w := (List.range (rts t).incrementationTable.length).map (junk (.inc t))) (by simp) (by simp) (by simp), Res.bind_ok]
  refine ⟨_, _, rfl, ⟨?_, ?_, ?_, ?_, ?_, ?_, ?_, ?_, ?_, ?_, ?_⟩⟩
  · intro t' h'
    rcases List.mem_cons.1 h' with rfl | h'
    · exact List.mem_cons_self
    · exact List.mem_cons_of_mem _ (h.sub t' h')
  · simp [h.arg]
  · intro t' h'
    obtain ⟨e1, e2⟩ := not_or.1 (mt List.mem_cons.2 h')
    obtain ⟨c1, c2⟩ := h.newHeap t' e2
    simp [e1, c1, c2]
  · intro t' h'
    obtain ⟨e1, e2⟩ := not_or.1 (mt List.mem_cons.2 h')
    obtain ⟨c1, c2, c3, c4⟩ := h.newBufs t' e2
    simp [e1, c1, c2, c3, c4]
  · intro t' h'
    rcases List.mem_cons.1 h' with rfl | h'
    · simp
    · have := hlive t' h'
      simpa [update_apply, this] using h.liveHeap t' h'
  · intro t' h'
    rcases List.mem_cons.1 h' with rfl | h'
    · simp
    · have := hlive t' h'
      simpa [update_apply, this] using h.ert t' h'
  · intro t' h'
    rcases List.mem_cons.1 h' with rfl | h'
    · simp
    · have := hlive t' h'
      simpa [update_apply, this] using h.inc t' h'
  · intro t' h'
    rcases List.mem_cons.1 h' with rfl | h'
    · exact ⟨_, by simp; rfl, by simp⟩
    · have := hlive t' h'
      simpa [update_apply, this] using h.unr t' h'
  · intro t' h'
    rcases List.mem_cons.1 h' with rfl | h'
    · exact ⟨_, by simp; rfl, by simp⟩
    · have := hlive t' h'
      simpa [update_apply, this] using h.ram t' h'
  · intro t' d hd
    simpa [update_apply] using h.old t' d hd
  · intro t' d hd
    simpa [update_apply] using h.fresh t' d hd

/-- Destroying a table. -/
theorem sess_drop {junk : Buf → Nat → Nat} {rts : Nat → ReductionTable} {used live : List Nat}
    {kernels : List (Nat × Nat)} {H : Heap} {B : Bufs} {O : List (List Nat)}
    (h : Sess rts used live kernels H B) {t : Nat} (ht : t ∈ live) :
    ∃ H' B', doOps junk ⟨H, B, O⟩ ((Event.drop t).ops rts kernels) = .ok ⟨H', B', O⟩ ∧
      Sess rts used (live.filter (· ≠ t)) kernels H' B' := by
  obtain ⟨a1, a2⟩ := h.liveHeap t ht
  have hsub : ∀ t' ∈ live.filter (· ≠ t), t' ∈ live ∧ t' ≠ t := by
    intro t' h'
    have := List.mem_filter.1 h'
    exact ⟨this.1, by simpa using this.2⟩
  simp only [Event.ops]
  rw [doOps_cons, doOp_free a1, Res.bind_ok, doOps_cons, doOp_free (by simpa using a2), Res.bind_ok]
  refine ⟨_, _, rfl, ⟨fun t' h' => h.sub t' (hsub t' h').1, ?_, ?_, h.newBufs, ?_, fun t' h' => h.ert t' (hsub t' h').1,
    fun t' h' => h.inc t' (hsub t' h').1, fun t' h' => h.unr t' (hsub t' h').1, fun t' h' => h.ram t' (hsub t' h').1,
    h.old, h.fresh⟩⟩
  · simp [h.arg]
  · intro t' h'
    obtain ⟨c1, c2⟩ := h.newHeap t' h'
    have : t' ≠ t := fun e => h' (e ▸ h.sub t ht)
    simp [this, c1, c2]
  · intro t' h'
    obtain ⟨e1, e2⟩ := hsub t' h'
    simpa [update_apply, e2] using h.liveHeap t' e1

/-- A count. -/
theorem sess_count {junk : Buf → Nat → Nat} {rts : Nat → ReductionTable} {used live : List Nat}
    {kernels : List (Nat × Nat)} {H : Heap} {B : Bufs} {O : List (List Nat)}
    (h : Sess rts used live kernels H B) {t : Nat} (ht : t ∈ live) {cs : List Nat}
    (hcs : cs ≠ []) {c : Nat × Nat} (hc : Curve.countOpencl (rts t) cs (0, 0) = .ok c) :
    ∃ H' B' U R, doOps junk ⟨H, B, O⟩ ((Event.count t cs).ops rts kernels) = .ok ⟨H', B', O ++ [U, R]⟩ ∧
      Sess rts used live ((t, cs.length - 1) :: kernels) H' B' ∧ reduce U R = .ok c := by
  have hlen : cs.length - 1 + 1 = cs.length := Nat.succ_pred (fun h => hcs (List.length_eq_zero_iff.1 h))
  obtain ⟨u, hu, lu⟩ := h.unr t ht
  obtain ⟨r, hr, lr⟩ := h.ram t ht
  -- the kernel is made if necessary
  obtain ⟨B1, w, h1, hw, lw, e3⟩ : ∃ B1 w,
      doOps junk ⟨H, B, O⟩ (if (t, cs.length - 1) ∈ kernels then [] else [.create (.coeffs t (cs.length - 1)) (cs.length - 1 + 1)]) =
        .ok ⟨H, B1, O⟩ ∧ B1 (.coeffs t (cs.length - 1)) = some w ∧ w.length = cs.length ∧
        ∀ b, b ≠ .coeffs t (cs.length - 1) → B1 b = B b := by
    by_cases hk : (t, cs.length - 1) ∈ kernels
    · obtain ⟨w, hw, lw⟩ := h.old t _ hk
      rw [if_pos hk]
      exact ⟨B, w, rfl, hw, lw.trans hlen, fun _ _ => rfl⟩
    · rw [if_neg hk, doOps_cons, doOp_create (h.fresh t _ hk), Res.bind_ok]
      exact ⟨_, _, rfl, update_self .., by simp [hlen], fun b hb => update_of_ne hb _ _⟩
  -- the values of the polynomial
  unfold Curve.countOpencl at hc
  obtain ⟨outs, hm, hc⟩ := Res.bind_eq_ok.1 hc
  have hex : ∀ x, ∃ y, x < (rts t).primePowerPred →
      Curve.evalKernel (rts t).exponentReductionTable (rts t).incrementationTable (rts t).primePowerPred cs x = .ok y := by
    intro x
    by_cases hx : x < (rts t).primePowerPred
    · obtain ⟨y, hy⟩ := mapM_exists hm x (List.mem_range.2 hx)
      obtain ⟨y', hy', _⟩ := Res.bind_eq_ok.1 hy
      exact ⟨y', fun _ => hy'⟩
    · exact ⟨0, fun h => absurd h hx⟩
  choose f hf using hex
  have houts : outs = (List.range (rts t).primePowerPred).map fun x => Curve.kernelOut (rts t).primePowerPred (f x) := by
    rw [mapM_ok (h := fun x => Curve.kernelOut (rts t).primePowerPred (f x)) _ (fun x hx => by
      rw [hf x (List.mem_range.1 hx)]; rfl)] at hm
    exact (Res.ok.inj hm).symm
  subst houts
  have hnc : ∀ b, b ≠ Buf.coeffs t (cs.length - 1) → ∀ v, B b = some v →
      update B1 (.coeffs t (cs.length - 1)) (some cs) b = some v := by
    intro b hb v hv
    rw [update_of_ne hb, e3 b hb, hv]
  simp only [Event.ops]
  rw [doOps_append, h1, Res.bind_ok, doOps_cons, doOp_alloc h.arg, Res.bind_ok, hlen, doOps_cons,
    doOp_write (v := cs) (w := w) (by simp) hw lw, Res.bind_ok, doOps_cons,
    doOp_kernel (kernelFor_sep (rts t) t (cs.length - 1)) (f := f) (u := u) (r := r) (cs := cs)
      (e := (rts t).exponentReductionTable) (i := (rts t).incrementationTable) (N := (rts t).primePowerPred)
      (by simp [kernelFor]) (hnc _ (by simp [kernelFor]) _ (h.ert t ht)) (hnc _ (by simp [kernelFor]) _ (h.inc t ht))
      (by simp [kernelFor, hlen]) hf (hnc _ (by simp [kernelFor]) _ hu) (hnc _ (by simp [kernelFor]) _ hr) lu lr,
    Res.bind_ok, doOps_cons, doOp_free (by simp), Res.bind_ok, doOps_cons,
    doOp_read (v := (List.range (rts t).primePowerPred).map fun x => (Curve.kernelOut (rts t).primePowerPred (f x)).1)
      (by simp [kernelFor]) (by simp), Res.bind_ok, doOps_cons,
    doOp_read (v := (List.range (rts t).primePowerPred).map fun x => (Curve.kernelOut (rts t).primePowerPred (f x)).2)
      (by simp [kernelFor]) (by simp), Res.bind_ok]
  have hb : ∀ b, b ≠ .coeffs t (cs.length - 1) → b ≠ .unramified t → b ≠ .ramified t → ∀ (v v' : List Nat),
      update (update (update B1 (.coeffs t (cs.length - 1)) (some cs)) (.unramified t) (some v)) (.ramified t) (some v') b
        = B b := by
    intro b c1 c2 c3 v v'
    rw [update_of_ne c3, update_of_ne c2, update_of_ne c1, e3 b c1]
  have hheap : ∀ a, a ≠ .arg → update (update H .arg (some cs)) .arg none a = H a := by
    intro a ha
    rw [update_of_ne ha, update_of_ne ha]
  refine ⟨_, _, _, _, by rw [List.append_assoc]; rfl, ⟨h.sub, update_self .., ?_, ?_, ?_, ?_, ?_, ?_, ?_, ?_, ?_⟩, ?_⟩
  · intro t' h'
    rw [hheap _ (by simp), hheap _ (by simp)]
    exact h.newHeap t' h'
  · intro t' h'
    have hne : t' ≠ t := fun e => h' (e ▸ h.sub t ht)
    simp only [kernelFor]
    rw [hb _ (by simp) (by simp) (by simp), hb _ (by simp) (by simp) (by simp), hb _ (by simp) (by simp [hne]) (by simp),
      hb _ (by simp) (by simp) (by simp [hne])]
    exact h.newBufs t' h'
  · intro t' h'
    rw [hheap _ (by simp), hheap _ (by simp)]
    exact h.liveHeap t' h'
  · intro t' h'
    simp only [kernelFor]
    rw [hb _ (by simp) (by simp) (by simp)]
    exact h.ert t' h'
  · intro t' h'
    simp only [kernelFor]
    rw [hb _ (by simp) (by simp) (by simp)]
    exact h.inc t' h'
  · intro t' h'
    simp only [kernelFor]
    by_cases hne : t' = t
    · subst hne
      exact ⟨_, by rw [update_of_ne (by simp), update_self], by simp⟩
    · rw [hb _ (by simp) (by simp [hne]) (by simp)]
      exact h.unr t' h'
  · intro t' h'
    simp only [kernelFor]
    by_cases hne : t' = t
    · subst hne
      exact ⟨_, by rw [update_self], by simp⟩
    · rw [hb _ (by simp) (by simp) (by simp [hne])]
      exact h.ram t' h'
  · intro t' d hd
    simp only [kernelFor]
    by_cases hne : t' = t ∧ d = cs.length - 1
    · obtain ⟨rfl, rfl⟩ := hne
      exact ⟨cs, by rw [update_of_ne (by simp), update_of_ne (by simp), update_self], hlen.symm⟩
    · rw [hb _ (by simpa using hne) (by simp) (by simp)]
      refine h.old t' d ?_
      rcases List.mem_cons.1 hd with hd | hd
      · cases hd; exact absurd ⟨rfl, rfl⟩ hne
      · exact hd
  · intro t' d hd
    simp only [kernelFor]
    obtain ⟨d1, d2⟩ := not_or.1 (mt List.mem_cons.2 hd)
    have hne : ¬ (t' = t ∧ d = cs.length - 1) := fun ⟨e1, e2⟩ => d1 (by rw [e1, e2])
    rw [hb _ (by simpa using hne) (by simp) (by simp)]
    exact h.fresh t' d d2
  · unfold reduce
    simp only [List.map_map] at hc
    simpa [Function.comp_def] using hc

/-- A careful session, where commands are carried out at once. -/
theorem sess_run {junk : Buf → Nat → Nat} {rts : Nat → ReductionTable} : ∀ {es : List Event} {used live fresh : List Nat}
    {kernels : List (Nat × Nat)} {H : Heap} {B : Bufs} {O : List (List Nat)}, Careful rts used live fresh es →
    Sess rts used live kernels H B → ∃ (z : Now) (res : List (List Nat × List Nat)), doOps junk ⟨H, B, O⟩ (ops rts kernels es) = .ok z ∧
      z.out = O ++ res.flatMap (fun p => [p.1, p.2]) ∧
      List.Forall₂ (fun c p => reduce p.1 p.2 = Curve.countOpencl (rts c.1) c.2 (0, 0)) (counts es) res
  | [], _, _, _, _, H, B, O, _, _ => ⟨⟨H, B, O⟩, [], rfl, by simp, .nil⟩
  | .table t moved :: es, used, live, fresh, kernels, H, B, O, hc, h => by
    obtain ⟨rfl, h1, h2⟩ := hc
    obtain ⟨H', B', h3, h4⟩ := sess_table (junk := junk) (O := O) h h1
    obtain ⟨z, res, h5, h6, h7⟩ := sess_run (junk := junk) (O := O) h2 h4
    exact ⟨z, res, by rw [ops, doOps_append, h3]; exact h5, h6, h7⟩
  | .count t cs :: es, used, live, fresh, kernels, H, B, O, hc, h => by
    obtain ⟨h1, h2, ⟨n, hn⟩, h3⟩ := hc
    obtain ⟨H', B', U, R, e1, e2, e3⟩ := sess_count (junk := junk) (O := O) h h1 h2 hn
    obtain ⟨z, res, h5, h6, h7⟩ := sess_run (junk := junk) (O := O ++ [U, R]) h3 e2
    exact ⟨z, (U, R) :: res, by rw [ops, doOps_append, e1]; exact h5, by rw [h6]; simp, .cons (e3.trans hn.symm) h7⟩
  | .drop t :: es, used, live, fresh, kernels, H, B, O, hc, h => by
    obtain ⟨h1, _, h2⟩ := hc
    obtain ⟨H', B', h3, h4⟩ := sess_drop (junk := junk) (O := O) h h1
    obtain ⟨z, res, h5, h6, h7⟩ := sess_run (junk := junk) (O := O) h2 h4
    exact ⟨z, res, by rw [ops, doOps_append, h3]; exact h5, h6, h7⟩

/-- Careful sessions do not free tables whose writes may be pending. -/
theorem safe_ops {rts : Nat → ReductionTable} : ∀ {es : List Event} {used live fresh : List Nat}
    {kernels : List (Nat × Nat)} {pend : List Addr}, Careful rts used live fresh es →
    (∀ t, t ∉ fresh → Addr.ert t ∉ pend ∧ Addr.inc t ∉ pend) → Safe pend (ops rts kernels es)
  | [], _, _, _, _, _, _, _ => trivial
  | .table t moved :: es, used, live, fresh, kernels, pend, hc, h => by
    obtain ⟨rfl, h1, h2⟩ := hc
    refine safe_ops (es := es) (kernels := kernels) (pend := .inc t :: .ert t :: pend) h2 ?_
    intro t' h'
    obtain ⟨e1, e2⟩ := not_or.1 (mt List.mem_cons.2 h')
    simp [e1, h t' e2]
  | .count t cs :: es, used, live, fresh, kernels, pend, hc, h => by
    obtain ⟨h1, h2, _, h3⟩ := hc
    have := safe_ops (kernels := (Event.count t cs).kernels kernels) (pend := []) h3 (by simp)
    rw [ops, Event.ops]
    split
    · exact ⟨.inl rfl, this⟩
    · exact ⟨.inl rfl, this⟩
  | .drop t :: es, used, live, fresh, kernels, pend, hc, h => by
    obtain ⟨h1, h2, h3⟩ := hc
    exact ⟨.inr (h t h2).1, .inr (h t h2).2, safe_ops (kernels := kernels) h3 h⟩

theorem opOk_ops {rts : Nat → ReductionTable} : ∀ {es : List Event} {kernels : List (Nat × Nat)},
    ∀ op ∈ ops rts kernels es, OpOk op
  | e :: es, kernels, op, hop => by
    rcases List.mem_append.1 hop with h | h
    · cases e with
      | table t moved =>
        cases moved
        · simp [Event.ops] at h
          rcases h with h | h | h | h | h | h | h | h <;> subst h <;> exact trivial
        · simp [Event.ops] at h
          rcases h with h | h <;> subst h <;> exact trivial
      | count t cs =>
        rcases List.mem_append.1 h with h | h
        · split at h
          · cases h
          · rw [List.mem_singleton.1 h]; exact trivial
        · simp at h
          rcases h with h | h | h | h | h | h <;> subst h <;> first | exact trivial | skip
          exact ⟨kernelFor_sep _ _ _, List.nodup_range⟩
      | drop t =>
        simp [Event.ops] at h
        rcases h with h | h <;> subst h <;> exact trivial
    · exact opOk_ops op h

/-- The invariant holds at the beginning of a careful session. -/
theorem inv_initial {junk : Buf → Nat → Nat} {rts : Nat → ReductionTable} {es : List Event}
    (h : Careful rts [] [] [] es) : ∃ (z : Now) (res : List (List Nat × List Nat)), Inv junk z (initial rts es) ∧
      z.out = res.flatMap (fun p => [p.1, p.2]) ∧
      List.Forall₂ (fun c p => reduce p.1 p.2 = Curve.countOpencl (rts c.1) c.2 (0, 0)) (counts es) res := by
  obtain ⟨z, res, h1, h2, h3⟩ := sess_run (junk := junk) (O := []) (H := fun _ => none) (B := fun _ => none)
    (kernels := []) h ⟨by simp, rfl, by simp, by simp, by simp, by simp, by simp, by simp, by simp, by simp, by simp⟩
  exact ⟨z, res, ⟨⟨_, rfl, h1⟩, by simp [initial], opOk_ops, [], by simp [initial], safe_ops h (by simp)⟩, by simpa using h2, h3⟩

end OpenCL
end Hycu
