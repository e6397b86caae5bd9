import Verif.Lemmas.OpenCL

/-!
Simulation of the asynchronous machine by one that carries out every command at once.
-/

namespace Hycu
namespace OpenCL

open Function

/-- Host and device if commands are carried out at once. -/
structure Now where
  heap : Heap
  bufs : Bufs
  out : List (List Nat)

/-- One step of the host, where commands are carried out at once. -/
def doOp (junk : Buf → Nat → Nat) (s : Now) : Op → Res Now
  | .alloc a v => if (s.heap a).isSome then .abort else .ok { s with heap := update s.heap a (some v) }
  | .free a => if (s.heap a).isSome then .ok { s with heap := update s.heap a none } else .ub
  | .create b n =>
    if (s.bufs b).isSome then .abort else .ok { s with bufs := update s.bufs b (some ((List.range n).map (junk b))) }
  | .enqueue c => do
    check s.bufs c
    let bufs ← exec s.heap s.bufs c
    .ok { s with bufs := bufs }
  | .read b n => do
    let v ← get s.bufs b
    if n ≤ v.length then .ok { s with out := s.out ++ [v.take n] } else .abort

def doOps (junk : Buf → Nat → Nat) (s : Now) (ops : List Op) : Res Now := ops.foldlM (doOp junk) s

/-- Memory is not freed as long as a write may be pending; `pend` are the addresses of pending writes. -/
def Safe : List Addr → List Op → Prop
  | _, [] => True
  | pend, .free a :: r => (a = .arg ∨ a ∉ pend) ∧ Safe pend r
  | pend, .enqueue (.write _ a _) :: r => Safe (a :: pend) r
  | _, .read _ _ :: r => Safe [] r
  | pend, _ :: r => Safe pend r

/-- Kernels are such that their work items do not depend on each other. -/
def OpOk : Op → Prop
  | .enqueue (.kernel k items) => k.Sep ∧ items.Nodup
  | _ => True

structure Inv (junk : Buf → Nat → Nat) (z : Now) (s : State) : Prop where
  sim : ∃ bufs, flush s.heap s.bufs s.queue = .ok bufs ∧ doOps junk ⟨s.heap, bufs, s.out⟩ s.todo = .ok z
  fits : ∀ c ∈ s.queue, Fits s.bufs c
  ok : ∀ op ∈ s.todo, OpOk op
  safe : ∃ pend, (∀ c ∈ s.queue, ∀ a, c.src = some a → a ∈ pend) ∧ Safe pend s.todo

/-- Work of a command. -/
def Cmd.cost : Cmd → Nat
  | .write _ _ _ => 1
  | .kernel _ items => items.length + 1

def Op.cost : Op → Nat
  | .enqueue c => c.cost + 1
  | _ => 1

/-- A bound for the number of steps that are left. -/
def work (s : State) : Nat := (s.todo.map Op.cost).sum + (s.queue.map Cmd.cost).sum

theorem flush_alive {heap : Heap} : ∀ {q : List Cmd} {bufs bufs' : Bufs}, flush heap bufs q = .ok bufs' →
    ∀ c ∈ q, ∀ a, c.src = some a → (heap a).isSome
  | c :: q, bufs, bufs', h, c', hc', a, ha => by
    unfold flush at h
    rw [List.foldlM_cons, Res.bind_eq_ok] at h
    obtain ⟨b1, h1, h2⟩ := h
    rcases List.mem_cons.1 hc' with rfl | hc'
    · cases c' with
      | write b a' n =>
        cases ha
        obtain ⟨v, _, h3, _⟩ := transfer_eq_ok.1 h1
        rw [h3]; rfl
      | kernel k items => cases ha
    · exact flush_alive h2 c' hc' a ha

theorem get_shape {bufs bufs' : Bufs} (h : SameShape bufs bufs') {b : Buf} {v : List Nat} (hv : get bufs' b = .ok v) :
    ∃ w, get bufs b = .ok w ∧ w.length = v.length := by
  have h1 := h b
  rw [get_eq_ok.1 hv] at h1
  cases h2 : bufs b with
  | none => rw [h2] at h1; cases h1
  | some w =>
    rw [h2] at h1
    exact ⟨w, get_eq_ok.2 h2, Option.some.inj h1⟩

theorem check_shape {bufs bufs' : Bufs} (h : SameShape bufs bufs') {c : Cmd} (hc : check bufs' c = .ok ()) :
    check bufs c = .ok () := by
  cases c with
  | write b a n =>
    unfold check at hc ⊢
    obtain ⟨v, h1, h2⟩ := Res.bind_eq_ok.1 hc
    obtain ⟨w, h3, h4⟩ := get_shape h h1
    show (get bufs b >>= _) = _
    rw [h3, Res.bind_ok, h4]
    exact h2
  | kernel k items =>
    unfold check at hc ⊢
    simp only [Res.bind_eq_ok] at hc
    obtain ⟨_, h1, _, h2, _, h3, _, h4, _, h5, _⟩ := hc
    obtain ⟨_, e1, _⟩ := get_shape h h1
    obtain ⟨_, e2, _⟩ := get_shape h h2
    obtain ⟨_, e3, _⟩ := get_shape h h3
    obtain ⟨_, e4, _⟩ := get_shape h h4
    obtain ⟨_, e5, _⟩ := get_shape h h5
    simp only [e1, e2, e3, e4, e5, Res.bind_ok]

theorem fits_of_check {bufs : Bufs} {c : Cmd} (hc : check bufs c = .ok ()) (ho : OpOk (.enqueue c)) : Fits bufs c := by
  cases c with
  | write b a n =>
    unfold check at hc
    obtain ⟨v, h1, h2⟩ := Res.bind_eq_ok.1 hc
    split at h2
    · exact ⟨v, get_eq_ok.1 h1, by assumption⟩
    · cases h2
  | kernel k items => exact ho

theorem inv_host {junk : Buf → Nat → Nat} {z : Now} {s : State} (h : Inv junk z s) (hp : Prompt s .host) :
    (host junk s = .ok none ∧ (s.todo = [] ∨ s.queue ≠ [])) ∨
    ∃ s', host junk s = .ok (some s') ∧ Inv junk z s' ∧ work s' < work s := by
  obtain ⟨⟨bufs, h1, h2⟩, hf, ho, pend, hq, hsafe⟩ := h
  obtain ⟨heap, b0, queue, todo, out⟩ := s
  have hshape := flush_shape hf h1
  simp only at *
  cases todo with
  | nil => exact .inl ⟨rfl, .inl rfl⟩
  | cons op r =>
    have ho' : ∀ op ∈ r, OpOk op := fun o hm => ho o (List.mem_cons_of_mem _ hm)
    unfold doOps at h2
    rw [List.foldlM_cons, Res.bind_eq_ok] at h2
    obtain ⟨n, h3, h4⟩ := h2
    cases op with
    | alloc a v =>
      right
      unfold doOp at h3
      simp only at h3
      split at h3
      · cases h3
      · rename_i ha
        cases h3
        have hne : ∀ c ∈ queue, ∀ a', c.src = some a' → heap a' = update heap a (some v) a' := by
          intro c hc a' ha'
          rw [update_of_ne]
          rintro rfl
          exact ha (flush_alive h1 c hc a' ha')
        refine ⟨⟨update heap a (some v), b0, queue, r, out⟩, ?_, ⟨⟨bufs, ?_, h4⟩, hf, ho', pend, hq, hsafe⟩, ?_⟩
        · show (if _ then _ else _) = _
          rw [if_neg ha]
        · exact (flush_congr _ hne).symm.trans h1
        · simp [work, Op.cost]
    | free a =>
      right
      unfold doOp at h3
      simp only at h3
      split at h3
      · rename_i ha
        cases h3
        have hnot : ∀ c ∈ queue, c.src ≠ some a := by
          intro c hc hs
          rcases hsafe.1 with rfl | hn
          · cases c with
            | write b a' n =>
              cases hs
              exact hp r rfl b n hc
            | kernel k items => cases hs
          · exact hn (hq c hc a hs)
        have hne : ∀ c ∈ queue, ∀ a', c.src = some a' → heap a' = update heap a none a' := by
          intro c hc a' ha'
          rw [update_of_ne]
          rintro rfl
          exact hnot c hc ha'
        refine ⟨⟨update heap a none, b0, queue, r, out⟩, ?_, ⟨⟨bufs, ?_, h4⟩, hf, ho', pend, hq, hsafe.2⟩, ?_⟩
        · show (if _ then _ else _) = _
          rw [if_pos ha]
        · exact (flush_congr _ hne).symm.trans h1
        · simp [work, Op.cost]
      · cases h3
    | create b n =>
      right
      unfold doOp at h3
      simp only at h3
      split at h3
      · cases h3
      · rename_i hb
        cases h3
        have hb' : bufs b = none := by simpa using hb
        have hb0 : b0 b = none := by
          have := hshape b
          rw [hb'] at this
          simpa using this
        refine ⟨⟨heap, update b0 b (some ((List.range n).map (junk b))), queue, r, out⟩, ?_,
          ⟨⟨_, flush_frame hf hb0 h1, h4⟩, ?_, ho', pend, hq, hsafe⟩, ?_⟩
        · show (if _ then _ else _) = _
          rw [if_neg (by simp [hb0])]
        · intro c hc
          have := hf c hc
          cases c with
          | write b' a n =>
            obtain ⟨v, e1, e2⟩ := this
            refine ⟨v, ?_, e2⟩
            show update b0 b _ b' = _
            rw [update_of_ne]
            · exact e1
            · rintro rfl
              rw [hb0] at e1; cases e1
          | kernel k items => exact this
        · simp [work, Op.cost]
    | enqueue c =>
      right
      unfold doOp at h3
      simp only at h3
      obtain ⟨_, h5, h6⟩ := Res.bind_eq_ok.1 h3
      obtain ⟨b1, h7, h8⟩ := Res.bind_eq_ok.1 h6
      cases h8
      have hc := check_shape hshape h5
      refine ⟨⟨heap, b0, queue ++ [c], r, out⟩, ?_, ⟨⟨b1, ?_, h4⟩, ?_, ho', ?_⟩, ?_⟩
      · show (check b0 c >>= _) = _
        rw [hc]; rfl
      · show flush heap b0 (queue ++ [c]) = _
        unfold flush at h1 ⊢
        rw [List.foldlM_append, h1, Res.bind_ok, List.foldlM_cons, h7]
        rfl
      · intro c' hc'
        rcases List.mem_append.1 hc' with hc' | hc'
        · exact hf c' hc'
        · rw [List.mem_singleton.1 hc']
          exact fits_of_check hc (ho _ List.mem_cons_self)
      · cases c with
        | write b a n =>
          refine ⟨a :: pend, fun c' hc' a' ha' => ?_, hsafe⟩
          rcases List.mem_append.1 hc' with hc' | hc'
          · exact List.mem_cons_of_mem _ (hq c' hc' a' ha')
          · rw [List.mem_singleton.1 hc'] at ha'
            cases ha'
            exact List.mem_cons_self
        | kernel k items =>
          refine ⟨pend, fun c' hc' a' ha' => ?_, hsafe⟩
          rcases List.mem_append.1 hc' with hc' | hc'
          · exact hq c' hc' a' ha'
          · rw [List.mem_singleton.1 hc'] at ha'
            cases ha'
      · simp [work, Op.cost]; omega
    | read b n =>
      cases queue with
      | cons c q => exact .inl ⟨rfl, .inr (by simp)⟩
      | nil =>
        right
        have hb : b0 = bufs := Res.ok.inj h1
        subst hb
        unfold doOp at h3
        simp only at h3
        obtain ⟨v, h5, h6⟩ := Res.bind_eq_ok.1 h3
        split at h6
        · rename_i hn
          cases h6
          refine ⟨⟨heap, b0, [], r, out ++ [v.take n]⟩, ?_, ⟨⟨b0, rfl, h4⟩, hf, ho', [], by simp, hsafe⟩, ?_⟩
          · show (get b0 b >>= _) = _
            rw [h5, Res.bind_ok, if_pos hn]
          · simp [work, Op.cost]
        · cases h6

theorem inv_device {junk : Buf → Nat → Nat} {z : Now} {s : State} (h : Inv junk z s) (i : Nat) :
    (device i s = .ok none ∧ (i = 0 → s.queue = [])) ∨
    ∃ s', device i s = .ok (some s') ∧ Inv junk z s' ∧ work s' < work s := by
  obtain ⟨⟨bufs, h1, h2⟩, hf, ho, pend, hq, hsafe⟩ := h
  obtain ⟨heap, b0, queue, todo, out⟩ := s
  simp only at *
  cases queue with
  | nil => exact .inl ⟨rfl, fun _ => rfl⟩
  | cons c q =>
    have hq' : ∀ c ∈ q, ∀ a, c.src = some a → a ∈ pend := fun c hc => hq c (List.mem_cons_of_mem _ hc)
    unfold flush at h1
    rw [List.foldlM_cons, Res.bind_eq_ok] at h1
    obtain ⟨b1, h3, h4⟩ := h1
    have hs := exec_shape (hf c List.mem_cons_self) h3
    have hf' : ∀ c ∈ q, Fits b1 c := fun c hc => (hf c (List.mem_cons_of_mem _ hc)).mono hs
    cases c with
    | write b a n =>
      right
      refine ⟨⟨heap, b1, q, todo, out⟩, ?_, ⟨⟨bufs, h4, h2⟩, hf', ho, pend, hq', hsafe⟩, ?_⟩
      · show (transfer heap b0 b a n >>= _) = _
        rw [show transfer heap b0 b a n = .ok b1 from h3]; rfl
      · simp [work, Cmd.cost]
    | kernel k items =>
      have hk := hf _ List.mem_cons_self
      cases items with
      | nil =>
        right
        cases h3
        exact ⟨⟨heap, b0, q, todo, out⟩, rfl, ⟨⟨bufs, h4, h2⟩, hf', ho, pend, hq', hsafe⟩, by simp [work, Cmd.cost]⟩
      | cons y ys =>
        cases hx : (y :: ys)[i]? with
        | none =>
          left
          refine ⟨?_, ?_⟩
          · show (match (y :: ys)[i]? with | none => _ | some x => _) = _
            rw [hx]
          · rintro rfl; simp at hx
        | some x =>
          right
          obtain ⟨b2, h5, h6⟩ := items_pick hk.1 hk.2 h3 hx
          have hs2 := item_shape hk.1 h5
          refine ⟨⟨heap, b2, .kernel k ((y :: ys).eraseIdx i) :: q, todo, out⟩, ?_,
            ⟨⟨bufs, ?_, h2⟩, ?_, ho, pend, ?_, hsafe⟩, ?_⟩
          · show (match (y :: ys)[i]? with | none => _ | some x => _) = _
            rw [hx]
            show (item k b0 x >>= _) = _
            rw [h5]; rfl
          · show flush heap b2 (.kernel k ((y :: ys).eraseIdx i) :: q) = _
            unfold flush
            rw [List.foldlM_cons, show exec heap b2 (.kernel k ((y :: ys).eraseIdx i)) = .ok b1 from h6]
            exact h4
          · intro c hc
            rcases List.mem_cons.1 hc with rfl | hc
            · exact ⟨hk.1, hk.2.sublist (List.eraseIdx_sublist _ _)⟩
            · exact (hf c (List.mem_cons_of_mem _ hc)).mono hs2
          · intro c hc a ha
            rcases List.mem_cons.1 hc with rfl | hc
            · cases ha
            · exact hq' c hc a ha
          · have hi : i < (y :: ys).length := by
              rcases Nat.lt_or_ge i (y :: ys).length with h | h
              · exact h
              · rw [List.getElem?_eq_none h] at hx; cases hx
            simp [work, Cmd.cost, List.length_eraseIdx_of_lt hi]

/-- Steps of the machine are right and decrease the work that is left. -/
theorem inv_step {junk : Buf → Nat → Nat} {z : Now} {s : State} (h : Inv junk z s) {a : Action} (hp : Prompt s a) :
    step junk s a = .ok none ∨ ∃ s', step junk s a = .ok (some s') ∧ Inv junk z s' ∧ work s' < work s := by
  cases a with
  | host => exact (inv_host h hp).imp (fun h => h.1) id
  | device i => exact (inv_device h i).imp (fun h => h.1) id

/-- There is always a next step. -/
theorem inv_progress {junk : Buf → Nat → Nat} {z : Now} {s : State} (h : Inv junk z s)
    (hs : s.todo ≠ [] ∨ s.queue ≠ []) : ∃ a s', Prompt s a ∧ step junk s a = .ok (some s') := by
  by_cases hq : s.queue = []
  · have hp : Prompt s .host := by
      intro r _ b n hm
      rw [hq] at hm; cases hm
    rcases inv_host h hp with ⟨_, h2⟩ | ⟨s', h1, _⟩
    · exact absurd h2 (not_or.2 ⟨hs.resolve_right (not_not.2 hq), not_not.2 hq⟩)
    · exact ⟨.host, s', hp, h1⟩
  · rcases inv_device h 0 with ⟨_, h2⟩ | ⟨s', h1, _⟩
    · exact absurd (h2 rfl) hq
    · exact ⟨.device 0, s', trivial, h1⟩

theorem inv_reachable {junk : Buf → Nat → Nat} {z : Now} {s₀ s : State} (h₀ : Inv junk z s₀)
    (h : Reachable Prompt junk s₀ s) : Inv junk z s := by
  induction h with
  | refl => exact h₀
  | step _ ha hs ih =>
    rcases inv_step ih ha with h1 | ⟨s', h1, h2, _⟩
    · rw [h1] at hs; cases hs
    · rw [h1] at hs
      cases hs
      exact h2

/-- At the end the host has read what the other machine reads. -/
theorem inv_end {junk : Buf → Nat → Nat} {z : Now} {s : State} (h : Inv junk z s) (ht : s.todo = []) : s.out = z.out := by
  obtain ⟨bufs, _, h2⟩ := h.sim
  rw [ht] at h2
  cases h2
  rfl

end OpenCL
end Hycu
