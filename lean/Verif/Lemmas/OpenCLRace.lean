import Verif.Lemmas.OpenCLSession

/-!
Executions of the machine with undefined behaviour.
-/

namespace Hycu
namespace OpenCL

open Function

theorem Reachable.trans {P : State → Action → Prop} {junk : Buf → Nat → Nat} {s₀ s₁ s₂ : State}
    (h : Reachable P junk s₀ s₁) (h' : Reachable P junk s₁ s₂) : Reachable P junk s₀ s₂ := by
  induction h' with
  | refl => exact h
  | step _ ha hs ih => exact .step ih ha hs

theorem Reachable.mono {P Q : State → Action → Prop} {junk : Buf → Nat → Nat} {s₀ s : State} (hPQ : ∀ s a, P s a → Q s a)
    (h : Reachable P junk s₀ s) : Reachable Q junk s₀ s := by
  induction h with
  | refl => exact .refl
  | step _ ha hs ih => exact .step ih (hPQ _ _ ha) hs

/-- The host does not wait for the device and does not free the parameter. -/
def Op.Quick : Op → Prop
  | .read _ _ => False
  | .free a => a ≠ .arg
  | _ => True

/-- What an operation puts into the queue. -/
def Op.queued : Op → List Cmd
  | .enqueue c => [c]
  | _ => []

/-- Operations that are not to read are done at once. -/
theorem host_quick {junk : Buf → Nat → Nat} {s s' : State} {op : Op} {r : List Op} (ht : s.todo = op :: r) (hq : op.Quick)
    (h : host junk s = .ok (some s')) : s'.todo = r ∧ s'.queue = s.queue ++ op.queued := by
  unfold host at h
  rw [ht] at h
  cases op with
  | alloc a v =>
    simp only at h
    split at h <;> cases h
    exact ⟨rfl, by simp [Op.queued]⟩
  | free a =>
    simp only at h
    split at h <;> cases h
    exact ⟨rfl, by simp [Op.queued]⟩
  | create b n =>
    simp only at h
    split at h <;> cases h
    exact ⟨rfl, by simp [Op.queued]⟩
  | enqueue c =>
    obtain ⟨_, _, h2⟩ := Res.bind_eq_ok.1 h
    cases h2
    exact ⟨rfl, rfl⟩
  | read b n => exact absurd hq id

/-- The host does several operations while the device does nothing. -/
theorem host_runs {junk : Buf → Nat → Nat} {z : Now} : ∀ {as : List Op} {r : List Op} {s : State}, Inv junk z s →
    s.todo = as ++ r → (∀ op ∈ as, op.Quick) →
    ∃ s', Reachable Prompt junk s s' ∧ Inv junk z s' ∧ s'.todo = r ∧ s'.queue = s.queue ++ as.flatMap Op.queued
  | [], r, s, h, ht, _ => ⟨s, .refl, h, ht, by simp⟩
  | op :: as, r, s, h, ht, hq => by
    have hop := hq op List.mem_cons_self
    have hp : Prompt s .host := by
      intro r' h' _ _ _
      rw [ht] at h'
      have : op = .free .arg := (List.cons.inj h').1
      subst this
      exact hop rfl
    rcases inv_host h hp with ⟨h1, h2⟩ | ⟨s1, h1, h2, _⟩
    · exfalso
      unfold host at h1
      rw [ht] at h1
      cases op with
      | alloc a v => simp only [List.cons_append] at h1; split at h1 <;> cases h1
      | free a => simp only [List.cons_append] at h1; split at h1 <;> cases h1
      | create b n => simp only [List.cons_append] at h1; split at h1 <;> cases h1
      | enqueue c =>
        obtain ⟨_, _, h3⟩ := Res.bind_eq_ok.1 h1
        cases h3
      | read b n => exact hop
    · obtain ⟨e1, e2⟩ := host_quick ht hop h1
      obtain ⟨s2, g1, g2, g3, g4⟩ := host_runs h2 e1 (fun op ho => hq op (List.mem_cons_of_mem _ ho))
      refine ⟨s2, .trans (.step .refl hp h1) g1, g2, g3, ?_⟩
      rw [g4, e2]
      simp

/-- The device works until it comes to the write. -/
theorem device_runs {junk : Buf → Nat → Nat} {z : Now} : ∀ (w : Nat) {s : State}, work s ≤ w → Inv junk z s →
    ∀ {b : Buf} {n : Nat}, Cmd.write b .arg n ∈ s.queue →
    ∃ s' b' n' q, Reachable Any junk s s' ∧ Inv junk z s' ∧ s'.todo = s.todo ∧ s'.queue = .write b' .arg n' :: q
  | w, s, hw, h, b, n, hm => by
    cases hq : s.queue with
    | nil => rw [hq] at hm; cases hm
    | cons c q =>
      rcases inv_device h 0 with ⟨_, h1⟩ | ⟨s1, h1, h2, h3⟩
      · rw [h1 rfl] at hm; cases hm
      · cases w with
        | zero => omega
        | succ w =>
          by_cases hc : ∃ b' n', c = .write b' .arg n'
          · obtain ⟨b', n', rfl⟩ := hc
            exact ⟨s, b', n', q, .refl, h, rfl, hq⟩
          · have hstep : s1.todo = s.todo ∧ (∀ b' n', Cmd.write b' .arg n' ∈ s.queue → Cmd.write b' .arg n' ∈ s1.queue) := by
              unfold device at h1
              rw [hq] at h1
              cases c with
              | write b' a n' =>
                obtain ⟨_, _, h4⟩ := Res.bind_eq_ok.1 h1
                cases h4
                refine ⟨rfl, fun b2 n2 h5 => ?_⟩
                rw [hq] at h5
                rcases List.mem_cons.1 h5 with h5 | h5
                · cases h5; exact absurd ⟨_, _, rfl⟩ hc
                · exact h5
              | kernel k items =>
                cases items with
                | nil =>
                  cases h1
                  refine ⟨rfl, fun b2 n2 h5 => ?_⟩
                  rw [hq] at h5
                  rcases List.mem_cons.1 h5 with h5 | h5
                  · cases h5
                  · exact h5
                | cons y ys =>
                  obtain ⟨_, _, h4⟩ := Res.bind_eq_ok.1 h1
                  cases h4
                  refine ⟨rfl, fun b2 n2 h5 => ?_⟩
                  rw [hq] at h5
                  rcases List.mem_cons.1 h5 with h5 | h5
                  · cases h5
                  · exact List.mem_cons_of_mem _ h5
            obtain ⟨s', b', n', q', g1, g2, g3, g4⟩ := device_runs w (by omega) h2 (hstep.2 b n hm)
            exact ⟨s', b', n', q', .trans (.step (a := .device 0) .refl trivial h1) g1, g2, g3.trans hstep.1, g4⟩

/-- The host frees the parameter while the device still has to read it. -/
theorem free_early {junk : Buf → Nat → Nat} {z : Now} {s : State} (h : Inv junk z s) {r : List Op}
    (ht : s.todo = .free .arg :: r) {b : Buf} {n : Nat} (hm : Cmd.write b .arg n ∈ s.queue) :
    ∃ s', Reachable Any junk s s' ∧ step junk s' (.device 0) = .ub ∧ ∃ b n q, s'.queue = .write b .arg n :: q := by
  obtain ⟨s1, b', n', q, h1, h2, h3, h4⟩ := device_runs _ le_rfl h hm
  obtain ⟨B, h5, h6⟩ := h2.sim
  have ha : (s1.heap .arg).isSome := flush_alive h5 _ (h4 ▸ List.mem_cons_self) _ rfl
  have h7 : host junk s1 = .ok (some { s1 with heap := update s1.heap .arg none, todo := r }) := by
    unfold host
    rw [h3, ht]
    simp only [ha, if_true]
  refine ⟨_, .step h1 trivial (a := .host) h7, ?_, b', n', q, h4⟩
  show device 0 _ = _
  unfold device
  simp only [h4, transfer, update_self]
  rfl

/-- The first count of a session. -/
theorem first_count : ∀ {es : List Event}, counts es ≠ [] → ∃ pre t cs post, es = pre ++ .count t cs :: post ∧ counts pre = []
  | .count t cs :: es, _ => ⟨[], t, cs, es, rfl, rfl⟩
  | .table t moved :: es, h => by
    obtain ⟨pre, t', cs, post, h1, h2⟩ := first_count (es := es) h
    exact ⟨.table t moved :: pre, t', cs, post, by rw [h1]; rfl, h2⟩
  | .drop t :: es, h => by
    obtain ⟨pre, t', cs, post, h1, h2⟩ := first_count (es := es) h
    exact ⟨.drop t :: pre, t', cs, post, by rw [h1]; rfl, h2⟩

theorem ops_quick {rts : Nat → ReductionTable} : ∀ {pre es : List Event} {kernels : List (Nat × Nat)}, counts pre = [] →
    ∃ as, ops rts kernels (pre ++ es) = as ++ ops rts kernels es ∧ ∀ op ∈ as, op.Quick
  | [], _, _, _ => ⟨[], rfl, by simp⟩
  | .count t cs :: pre, _, _, h => by cases h
  | .table t moved :: pre, es, kernels, h => by
    obtain ⟨as, h1, h2⟩ := ops_quick (rts := rts) (es := es) (kernels := kernels) (pre := pre) h
    refine ⟨(Event.table t moved).ops rts kernels ++ as, ?_, ?_⟩
    · rw [List.append_assoc, ← h1]; rfl
    · intro op hop
      rcases List.mem_append.1 hop with hop | hop
      · cases moved
        · simp [Event.ops] at hop
          rcases hop with h | h | h | h | h | h | h | h <;> subst h <;> exact trivial
        · simp [Event.ops] at hop
          rcases hop with h | h <;> subst h <;> exact trivial
      · exact h2 op hop
  | .drop t :: pre, es, kernels, h => by
    obtain ⟨as, h1, h2⟩ := ops_quick (rts := rts) (es := es) (kernels := kernels) (pre := pre) h
    refine ⟨(Event.drop t).ops rts kernels ++ as, ?_, ?_⟩
    · rw [List.append_assoc, ← h1]; rfl
    · intro op hop
      rcases List.mem_append.1 hop with hop | hop
      · simp [Event.ops] at hop
        rcases hop with h | h <;> subst h <;> simp [Op.Quick]
      · exact h2 op hop

/-- Every session with a count has an execution in which the coefficients are read after they have been freed. -/
theorem race {junk : Buf → Nat → Nat} {rts : Nat → ReductionTable} {es : List Event} {z : Now}
    (h : Inv junk z (initial rts es)) (hc : counts es ≠ []) :
    ∃ s, Reachable Any junk (initial rts es) s ∧ step junk s (.device 0) = .ub ∧ ∃ b n q, s.queue = .write b .arg n :: q := by
  obtain ⟨pre, t, cs, post, rfl, h2⟩ := first_count hc
  obtain ⟨as, h3, h4⟩ := ops_quick (rts := rts) (es := .count t cs :: post) (kernels := []) h2
  obtain ⟨bs, r, h5, h6, b, n, h7⟩ : ∃ bs r, ops rts [] (.count t cs :: post) = bs ++ .free .arg :: r ∧
      (∀ op ∈ bs, op.Quick) ∧ ∃ b n, Cmd.write b .arg n ∈ bs.flatMap Op.queued :=
    ⟨[.create (.coeffs t (cs.length - 1)) (cs.length - 1 + 1), .alloc .arg cs,
      .enqueue (.write (.coeffs t (cs.length - 1)) .arg (cs.length - 1 + 1)),
      .enqueue (.kernel (kernelFor (rts t) t (cs.length - 1)) (List.range (rts t).primePowerPred))],
      .read (.unramified t) (rts t).primePowerPred :: .read (.ramified t) (rts t).primePowerPred ::
        ops rts ((Event.count t cs).kernels []) post,
      rfl, by simp [Op.Quick], .coeffs t (cs.length - 1), cs.length - 1 + 1, by simp [Op.queued]⟩
  obtain ⟨s, g1, g2, g3, g4⟩ := host_runs h (as := as ++ bs) (r := .free .arg :: r)
    (by show ops rts [] _ = _; rw [h3, h5, List.append_assoc]) (by
      intro op hop
      rcases List.mem_append.1 hop with hop | hop
      · exact h4 op hop
      · exact h6 op hop)
  obtain ⟨s', e1, e2⟩ := free_early g2 g3 (b := b) (n := n) (by
    rw [g4, List.flatMap_append]
    exact List.mem_append_right _ (List.mem_append_right _ h7))
  exact ⟨s', .trans (g1.mono fun _ _ _ => trivial) e1, e2⟩

/-- Steps of the host alone. -/
def hosts (junk : Buf → Nat → Nat) : Nat → State → Res State
  | 0, s => .ok s
  | n + 1, s =>
    match host junk s with
    | .ok (some s') => hosts junk n s'
    | _ => .abort

theorem host_todo {junk : Buf → Nat → Nat} {s s' : State} (h : host junk s = .ok (some s')) :
    ∃ op, s.todo = op :: s'.todo := by
  unfold host at h
  split at h
  · cases h
  · split at h <;> cases h
    exact ⟨_, by assumption⟩
  · split at h <;> cases h
    exact ⟨_, by assumption⟩
  · split at h <;> cases h
    exact ⟨_, by assumption⟩
  · obtain ⟨_, _, h2⟩ := Res.bind_eq_ok.1 h
    cases h2
    exact ⟨_, by assumption⟩
  · split at h
    · obtain ⟨_, _, h2⟩ := Res.bind_eq_ok.1 h
      split at h2 <;> cases h2
      exact ⟨_, by assumption⟩
    · cases h

theorem hosts_reach {junk : Buf → Nat → Nat} : ∀ {n : Nat} {s s' : State}, hosts junk n s = .ok s' →
    Op.free .arg ∉ s.todo → Reachable Prompt junk s s'
  | 0, s, s', h, _ => by cases h; exact .refl
  | n + 1, s, s', h, ha => by
    unfold hosts at h
    split at h
    · rename_i s1 h1
      obtain ⟨op, h2⟩ := host_todo h1
      refine .trans (.step (a := .host) .refl ?_ h1) (hosts_reach h fun hm => ha (h2 ▸ List.mem_cons_of_mem _ hm))
      intro r hr
      exact absurd (hr ▸ List.mem_cons_self) ha
    · cases h

theorem hosts_any {junk : Buf → Nat → Nat} : ∀ {n : Nat} {s s' : State}, hosts junk n s = .ok s' → Reachable Any junk s s'
  | 0, s, s', h => by cases h; exact .refl
  | n + 1, s, s', h => by
    unfold hosts at h
    split at h
    · rename_i s1 h1
      exact .trans (.step (a := .host) .refl trivial h1) (hosts_any h)
    · cases h

/-- A table that is destroyed before its content has been transferred. -/
theorem drop_early (junk : Buf → Nat → Nat) (rts : Nat → ReductionTable) (t : Nat) :
    ∃ s, Reachable Prompt junk (initial rts [.table t false, .drop t]) s ∧ step junk s (.device 0) = .ub := by
  refine ⟨_, hosts_reach (n := 10) (by
    simp only [hosts, host, initial, ops, Event.ops, check, get, Res.bind_ok, List.cons_append, List.nil_append,
      Bool.false_eq_true, if_false, update_self, ne_eq, reduceCtorEq, not_false_eq_true, update_of_ne, Option.isSome_none,
      Option.isSome_some, if_true, List.length_map, List.length_range, le_refl]
    rfl) (by simp [initial, ops, Event.ops]), ?_⟩
  simp only [step, device, transfer, update_self, ne_eq, reduceCtorEq, not_false_eq_true, update_of_ne]
  rfl

theorem store_none {bufs bufs' : Bufs} {b b' : Buf} {i x : Nat} (h : store bufs b i x = .ok bufs') (hb : bufs b' = none) :
    bufs' b' = none := by
  unfold store at h
  obtain ⟨v, h1, h2⟩ := Res.bind_eq_ok.1 h
  split at h2 <;> cases h2
  rw [update_of_ne]
  · exact hb
  · rintro rfl
    rw [get_eq_ok.1 h1] at hb; cases hb

theorem item_none {k : Kernel} {bufs bufs' : Bufs} {b : Buf} {x : Nat} (h : item k bufs x = .ok bufs') (hb : bufs b = none) :
    bufs' b = none := by
  unfold item at h
  simp only [Res.bind_eq_ok] at h
  obtain ⟨_, _, _, _, _, _, _, _, _, _, _, h1, h2⟩ := h
  exact store_none h2 (store_none h1 hb)

theorem transfer_none {heap : Heap} {bufs bufs' : Bufs} {b b' : Buf} {a : Addr} {n : Nat}
    (h : transfer heap bufs b a n = .ok bufs') (hb : bufs b' = none) : bufs' b' = none := by
  obtain ⟨v, w, _, h1, _, h2⟩ := transfer_eq_ok.1 h
  rw [h2, update_of_ne]
  · exact hb
  · rintro rfl
    rw [h1] at hb; cases hb

theorem device_none {s s' : State} {i : Nat} {b : Buf} (h : device i s = .ok (some s')) (hb : s.bufs b = none) :
    s'.bufs b = none ∧ s'.todo = s.todo := by
  unfold device at h
  split at h
  · cases h
  · obtain ⟨_, h1, h2⟩ := Res.bind_eq_ok.1 h
    cases h2
    exact ⟨transfer_none h1 hb, rfl⟩
  · cases h
    exact ⟨hb, rfl⟩
  · split at h
    · cases h
    · obtain ⟨_, h1, h2⟩ := Res.bind_eq_ok.1 h
      cases h2
      exact ⟨item_none h1 hb, rfl⟩

/-- A kernel cannot be used without the buffers of its table. -/
theorem stuck {junk : Buf → Nat → Nat} {k : Kernel} {items : List Nat} {s₀ s : State} {as r : List Op}
    (hs : Reachable Any junk s₀ s) (ht : s₀.todo = as ++ .enqueue (.kernel k items) :: r) (hb : s₀.bufs k.ert = none)
    (has : ∀ op ∈ as, ∀ n, op ≠ .create k.ert n) :
    s.bufs k.ert = none ∧ ∃ as', s.todo = as' ++ .enqueue (.kernel k items) :: r ∧ ∀ op ∈ as', ∀ n, op ≠ .create k.ert n := by
  induction hs with
  | refl => exact ⟨hb, as, ht, has⟩
  | @step s s' a _ _ h ih =>
    obtain ⟨h1, as', h2, h3⟩ := ih
    cases a with
    | device i =>
      obtain ⟨e1, e2⟩ := device_none h h1
      exact ⟨e1, as', e2.trans h2, h3⟩
    | host =>
      change host junk s = _ at h
      cases as' with
      | nil =>
        exfalso
        unfold host at h
        rw [h2] at h
        obtain ⟨_, h4, _⟩ := Res.bind_eq_ok.1 h
        unfold check at h4
        simp only [Res.bind_eq_ok] at h4
        obtain ⟨_, _, _, h5, _⟩ := h4
        rw [get_eq_ok.1 h5] at h1; cases h1
      | cons op as' =>
        obtain ⟨op', h4⟩ := host_todo h
        rw [h2, List.cons_append] at h4
        obtain ⟨rfl, h5⟩ := List.cons.inj h4
        refine ⟨?_, as', h5.symm, fun o ho => h3 o (List.mem_cons_of_mem _ ho)⟩
        have h6 := h3 op List.mem_cons_self
        unfold host at h
        rw [h2] at h
        cases op with
        | alloc a v =>
          simp only [List.cons_append] at h
          split at h <;> cases h
          exact h1
        | free a =>
          simp only [List.cons_append] at h
          split at h <;> cases h
          exact h1
        | create b n =>
          simp only [List.cons_append] at h
          split at h <;> cases h
          show update s.bufs b _ _ = _
          rw [update_of_ne]
          · exact h1
          · intro e; exact h6 n (by rw [e])
        | enqueue c =>
          obtain ⟨_, _, h7⟩ := Res.bind_eq_ok.1 h
          cases h7
          exact h1
        | read b n =>
          simp only [List.cons_append] at h
          split at h
          · obtain ⟨_, _, h7⟩ := Res.bind_eq_ok.1 h
            split at h7 <;> cases h7
            exact h1
          · cases h

end OpenCL
end Hycu
