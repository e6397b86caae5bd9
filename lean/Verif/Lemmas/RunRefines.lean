import Verif.Lemmas.RunLocks
import Verif.Lemmas.LocksWhole

/-!
Runs in small steps are runs of the machine in `Verif.Model.Pool`.
-/

namespace Hycu
namespace Locks

variable {env : Run.Env} {kinds : List Bool} {fs : FileSystem} {todo : List Run.Cmd}

/-- A run with `kinds` threads. -/
abbrev runs (kinds : List Bool) (env : Run.Env) : System Agent Lock Var Run.Choice Val :=
  system kinds.length (fun i => kinds[i]?.getD false) env

/-- A state of the machine with large steps that has the same variables. -/
def Matches (env : Run.Env) (kinds : List Bool) (fs : FileSystem) (todo : List Run.Cmd) (m : Mem) (st : Run.State) : Prop :=
  Run.Reachable env (Run.initial kinds fs todo) st ∧ ofState st = m ∧ st.size = kinds.length ∧
    ∀ i, (st.thr i).opencl = kinds[i]?.getD false

theorem Matches.toState {m : Mem} {st : Run.State} (h : Matches env kinds fs todo m st) :
    toState kinds.length (fun i => kinds[i]?.getD false) m = { st with log := [] } := by
  obtain ⟨_, rfl, h1, h2⟩ := h
  rw [← toState_ofState st, h1]
  congr 1
  funext i
  exact (h2 i).symm

theorem Matches.step {m n : Mem} {st : Run.State} (h : Matches env kinds fs todo m st) {l : Run.Label} {u : Run.State}
    (hs : Run.step env (Locks.toState kinds.length (fun i => kinds[i]?.getD false) m) l = .ok (some u))
    (hn : ofState u = n) : ∃ st', Matches env kinds fs todo n st' ∧ Run.step env st l = .ok (some st') := by
  rw [h.toState] at hs
  have he := eqv_step env st [] l
  rw [hs] at he
  generalize hr : Run.step env st l = r at he
  cases he with
  | some _ v L hu h1 h2 =>
    refine ⟨v, ⟨.step l h.1 hr, ?_, h1.trans h.2.2.1, fun i => (h2 i).trans (h.2.2.2 i)⟩, rfl⟩
    rw [← hn, hu]
    exact (ofState_log v L).symm

theorem Matches.big {m n : Mem} {st : Run.State} (h : Matches env kinds fs todo m st) (hb : Big (runs kinds env) m n) :
    ∃ l st', Matches env kinds fs todo n st' ∧ Run.step env st l = .ok (some st') := by
  cases hb with
  | act a ch _ hb =>
    obtain ⟨o, h1, h2⟩ := Res.bind_eq_ok.1 hb
    cases o with
    | none => cases h2
    | some u =>
      cases h2
      exact ⟨_, h.step h1 rfl⟩
  | sync a hb =>
    cases hb with
    | main _ ch u _ hu => exact ⟨_, h.step hu rfl⟩
    | spurious _ i u hu => exact ⟨_, h.step hu rfl⟩

/-- In every state that can be reached, the variables (with the values from the last section that took effect) are those
of a state of the machine with large steps. -/
theorem refines {c : Config Agent Lock Var Val} (h : Reachable (runs kinds env) (initial kinds fs todo) c) :
    Inv (runs kinds env) c ∧ ∃ st, Matches env kinds fs todo (abs (runs kinds env) c) st := by
  have hl := laws kinds.length (fun i => kinds[i]?.getD false) env
  induction h with
  | refl =>
    obtain ⟨h1, h2⟩ := Inv.initial (runs kinds env) (initial kinds fs todo) (fun _ => rfl) (fun _ => rfl) (fun a => by
      cases a <;> rfl)
    exact ⟨h1, Run.initial kinds fs todo, .refl, h2.symm, rfl, fun _ => rfl⟩
  | step a _ hs ih =>
    obtain ⟨hi, st, hm⟩ := ih
    obtain ⟨h1, h2⟩ := hi.step hl hs
    refine ⟨h1, ?_⟩
    rcases h2 with h2 | h2
    · rw [h2]
      exact ⟨st, hm⟩
    · obtain ⟨_, st', h3, _⟩ := hm.big h2
      exact ⟨st', h3⟩
  | scribble _ hs ih =>
    obtain ⟨hi, st, hm⟩ := ih
    obtain ⟨h1, h2⟩ := hi.scribble hl hs
    rw [← h2] at hm
    exact ⟨h1, st, hm⟩

/-! ### The other direction -/

/-- The constants of a state. -/
def Fixed (kinds : List Bool) (st : Run.State) : Prop :=
  st.size = kinds.length ∧ ∀ i, (st.thr i).opencl = kinds[i]?.getD false

theorem Fixed.step {st st' : Run.State} (h : Fixed kinds st) {l : Run.Label} (hs : Run.step env st l = .ok (some st')) :
    Fixed kinds st' ∧ ∃ u, Run.step env (toState kinds.length (fun i => kinds[i]?.getD false) (ofState st)) l = .ok (some u) ∧
      ofState u = ofState st' := by
  have e : toState kinds.length (fun i => kinds[i]?.getD false) (ofState st) = { st with log := [] } := by
    rw [← toState_ofState st, h.1]
    congr 1
    funext i
    exact (h.2 i).symm
  have he := eqv_step env st [] l
  rw [hs] at he
  rw [e]
  generalize Run.step env { st with log := [] } l = r at he
  cases he with
  | some u v L hu h1 h2 =>
    refine ⟨⟨h1.trans h.1, fun i => (h2 i).trans (h.2 i)⟩, u, rfl, ?_⟩
    rw [hu]
    exact ofState_log st' L

theorem Fixed.act {st st' : Run.State} (h : Fixed kinds st) {a : Agent} {ch : Run.Choice}
    (hs : Run.step env st (label ch a) = .ok (some st')) : (runs kinds env).act a ch (ofState st) = .ok (some (ofState st')) := by
  obtain ⟨_, u, h1, h2⟩ := h.step hs
  show (Run.step env (toState kinds.length (fun i => kinds[i]?.getD false) (ofState st)) (label ch a)).bind _ = _
  rw [h1, ← h2]
  rfl

/-- How the machine with small steps follows: if a worker thread needs the mutex of the pool, then the main thread
notifies earlier. -/
inductive Follows (kinds : List Bool) (st : Run.State) (m : Mem) : Prop
  | same (h : m = ofState st)
  | late (i : Nat) (b : Block) (hp : st.pc = .notify i b) (h : m = goto (ofState st) (.insert b))
      (hs : (st.thr i).phase = .sleep → i < kinds.length)
  | woken (i : Nat) (b : Block) (hp : st.pc = .notify i b) (h : m = goto (wakeMem (ofState st) i) (.insert b))

theorem goto_of_ne (m : Mem) (pc : Run.Pc) {x : Var} (h : x ≠ .main) : goto m pc x = m x := Function.update_of_ne h _ _

theorem wakeMem_of_ne (m : Mem) (i : Nat) {x : Var} (h : x ≠ .phase i) : wakeMem m i x = m x := by
  unfold wakeMem
  split
  · exact Function.update_of_ne h _ _
  · rfl

theorem wakeMem_awake {m : Mem} {i : Nat} (h : (m (.phase i) : Run.Phase) ≠ .sleep) : wakeMem m i = m := if_neg h

theorem wakeMem_asleep {m : Mem} {i : Nat} (h : (m (.phase i) : Run.Phase) = .sleep) :
    wakeMem m i = Function.update m (.phase i) Run.Phase.check := if_pos h

theorem wakeMem_goto (m : Mem) (pc : Run.Pc) (i : Nat) : wakeMem (goto m pc) i = goto (wakeMem m i) pc := by
  unfold wakeMem
  rw [goto_phase]
  split
  · unfold goto
    rw [Function.update_comm (by simp), Function.update_of_ne (by simp)]
  · rfl

theorem wakeMem_comm (m : Mem) {i j : Nat} (h : i ≠ j) : wakeMem (wakeMem m i) j = wakeMem (wakeMem m j) i := by
  unfold wakeMem
  by_cases h1 : (m (.phase i) : Run.Phase) = .sleep <;> by_cases h2 : (m (.phase j) : Run.Phase) = .sleep <;>
    simp [h1, h2, Function.update_of_ne, h, h.symm, Function.update_comm]

theorem ofState_wakes (st : Run.State) (i : Nat) : ofState (Run.wake st i) = wakeMem (ofState st) i := by
  unfold Run.wake wakeMem
  show ofState (if (st.thr i).phase = .sleep then _ else _) = if (st.thr i).phase = .sleep then _ else _
  split
  · rw [ofState_setThread _ _ _ (by rfl)]
    have h1 : Function.update (ofState st) (.queue i) (st.thr i).queue = ofState st := Function.update_eq_self ..
    have h2 : Function.update (ofState st) (.stop i) (st.thr i).stop = ofState st := Function.update_eq_self ..
    show Function.update (Function.update (Function.update (ofState st) (.queue i) (st.thr i).queue) (.stop i)
      (st.thr i).stop) (.phase i) Run.Phase.check = _
    rw [h1, h2]
  · rfl

/-- Between two sections, only the main thread holds a mutex, and only in front of a notification. -/
theorem owner_free {c : Config Agent Lock Var Val} (hi : Inv (runs kinds env) c) (ho : ∀ a, c.prog a = .out) {l : Lock}
    (h : ∀ i b, (c.mem .main : MainData).pc = .notify i b → l ≠ .pool) : c.owner l = none := by
  cases hl : c.owner l with
  | none => rfl
  | some a =>
    exfalso
    have := (hi.own a l).2 hl
    unfold holds at this
    rw [ho a] at this
    change l ∈ (runs kinds env).held a c.mem ++ [] at this
    rw [List.append_nil] at this
    cases a with
    | main =>
      change l ∈ (match (c.mem .main : MainData).pc with | .notify _ _ => [Lock.pool] | _ => []) at this
      split at this
      · next i b hp => exact h i b hp (List.mem_singleton.1 this)
      · cases this
    | thread i => cases this

/-- A worker thread that makes a step does not rest. -/
theorem thread_not_rest {st st' : Run.State} (hf : Fixed kinds st) {j : Nat}
    (hs : Run.step env st (.thread j) = .ok (some st')) : j < kinds.length ∧ (st.thr j).phase ≠ .sleep ∧
      (st.thr j).phase ≠ .done := by
  change (if j < st.size then Run.threadStep env st j else .ok none) = _ at hs
  rw [hf.1] at hs
  split at hs
  · next hj =>
    refine ⟨hj, fun h => ?_, fun h => ?_⟩ <;>
    · unfold Run.threadStep at hs
      simp only [h] at hs
      cases hs
  · cases hs

/-- The main thread makes a step in a section, or notifies, or joins. -/
theorem main_not_rest {st st' : Run.State} {ch : Run.Choice} (hs : Run.masterStep st ch = .ok (some st')) :
    (∃ i b, st.pc = .notify i b) ∨ (∃ i, st.pc = .shutNotify i) ∨ (∃ i, st.pc = .join i) ∨
      ¬ mainRests (ofState st .main) := by
  show _ ∨ _ ∨ _ ∨ ¬ (match st.pc with
    | .notify _ _ => True
    | .shutNotify _ => True
    | .join _ => True
    | .finished => True
    | .newStore => ¬ ∃ c rest, st.todo = .config c :: rest
    | .update => ¬ ∃ c rest, st.todo = .config c :: rest
    | .contains => ¬ ∃ b rest, st.todo = .assign b :: rest
    | .take => ¬ ∃ b rest, st.todo = .assign b :: rest
    | _ => False)
  unfold Run.masterStep at hs
  cases hpc : st.pc <;> simp only [hpc] at hs ⊢ <;> try simp
  · split at hs
    · next h => exact ⟨_, _, h⟩
    · cases hs
  · split at hs
    · next h => exact ⟨_, _, h⟩
    · cases hs
  · split at hs
    · next h => exact ⟨_, _, h⟩
    · cases hs
  · split at hs
    · next h => exact ⟨_, _, h⟩
    · cases hs
  · cases hs

/-- A worker thread does the same in the machine with small steps, if the main thread has notified already. -/
theorem late_thread {st st' : Run.State} (hf : Fixed kinds st) {j : Nat}
    (hs : Run.step env st (.thread j) = .ok (some st')) {c : Config Agent Lock Var Val} (hi : Inv (runs kinds env) c)
    (ho : ∀ a, c.prog a = .out) {i : Nat} {b : Block} (hp : st.pc = .notify i b)
    (hm : (c.mem = goto (ofState st) (.insert b) ∧ ((st.thr i).phase = .sleep → i < kinds.length)) ∨
      c.mem = goto (wakeMem (ofState st) i) (.insert b)) :
    ∃ c', Reachable (runs kinds env) c c' ∧ (∀ a, c'.prog a = .out) ∧ Follows kinds st' c'.mem := by
  have hl := laws kinds.length (fun i => kinds[i]?.getD false) env
  obtain ⟨hj, h1, h2⟩ := thread_not_rest hf hs
  have hact := hf.act (a := .thread j) (ch := ⟨false, false, 0⟩) hs
  have hrest : ¬ (runs kinds env).rest (.thread j) (ofState st) := by
    rintro (h | h | h)
    · exact h hj
    · exact h1 h
    · exact h2 h
  have hsh : ∀ x l, guard x = .inl l → c.mem x = ofState st x := by
    intro x l hx
    rcases hm with ⟨hm, -⟩ | hm
    · rw [hm, goto_shared _ _ hx]
    · rw [hm, goto_shared _ _ hx, wakeMem_shared _ _ hx]
  have hph : c.mem (.phase j) = ofState st (.phase j) := by
    rcases hm with ⟨hm, -⟩ | hm
    · rw [hm, goto_phase]
    · rw [hm, goto_phase]
      by_cases hij : j = i
      · subst hij
        rw [wakeMem_awake h1]
      · exact wakeMem_of_ne _ _ (by simpa using hij)
  have hsame : (runs kinds env).Same (.thread j) (ofState st) c.mem := by
    intro x hx
    cases x <;> cases hx
    exact hph.symm
  have hreads : ∀ x ∈ reads ((runs kinds env).plan (.thread j) (ofState st)), ofState st x = c.mem x := by
    intro x hx
    obtain ⟨k, _, hk⟩ := reads_take (k := ((runs kinds env).plan (.thread j) (ofState st)).length) (by rwa [List.take_length])
    obtain ⟨l, hg, _⟩ := hl.read_guard _ _ _ _ hk
    exact (hsh x l hg).symm
  obtain ⟨t, ht, t1, t2, t3⟩ := hl.act_frame _ _ _ _ _ hrest hsame hreads hact
  obtain ⟨u, hu, -, -, u3⟩ := hl.act_frame _ _ _ (ofState st) _ hrest (fun _ _ => rfl) (fun _ _ => rfl) hact
  rw [hact] at hu
  cases hu
  have hrest' : ¬ (runs kinds env).rest (.thread j) c.mem := fun h => hrest (hl.rest_dep _ _ _ (fun x hx => (hsame x hx).symm) h)
  have hpc' : (c.mem .main : MainData).pc = .insert b := by
    rcases hm with ⟨hm, -⟩ | hm <;> rw [hm, goto_main]
  obtain ⟨c', r1, r2, r3⟩ := whole hl (ho (.thread j)) hrest' (fun l _ => owner_free hi ho fun i' b' h => by
    rw [hpc'] at h; cases h) ht
  refine ⟨c', r1, fun a => by rw [r3]; exact ho a, ?_⟩
  have htouch : ∀ x, x ∈ (runs kinds env).touched (.thread j) (ofState st) → ∃ l, guard x = .inl l := by
    intro x hx
    change x ∈ reads _ ++ [] at hx
    rw [List.append_nil] at hx
    obtain ⟨k, _, hk⟩ := reads_take (k := ((runs kinds env).plan (.thread j) (ofState st)).length) (by rwa [List.take_length])
    obtain ⟨l, hg, _⟩ := hl.read_guard _ _ _ _ hk
    exact ⟨l, hg⟩
  have hmain : ofState st' .main = ofState st .main := u3 .main (by show guard .main ≠ _; simp [guard]) fun h => by
    obtain ⟨l, hg⟩ := htouch _ h
    cases hg
  have tmain : t .main = c.mem .main := t3 .main (by show guard .main ≠ _; simp [guard]) fun h => by
    obtain ⟨l, hg⟩ := htouch _ h
    cases hg
  have hpc : st'.pc = .notify i b := by
    have : (ofState st' .main : MainData).pc = .notify i b := by rw [hmain]; exact hp
    exact this
  have tphase : ∀ k, k ≠ j → t (.phase k) = c.mem (.phase k) := fun k hk => t3 (.phase k) (by show guard (.phase k) ≠ _; simp [guard, hk]) fun h => by
    obtain ⟨l, hg⟩ := htouch _ h
    cases hg
  have sphase : ∀ k, k ≠ j → ofState st' (.phase k) = ofState st (.phase k) := fun k hk =>
    u3 (.phase k) (by show guard (.phase k) ≠ _; simp [guard, hk]) fun h => by
      obtain ⟨l, hg⟩ := htouch _ h
      cases hg
  have tshared : ∀ x l, guard x = .inl l → t x = ofState st' x := by
    intro x l hx
    by_cases h : x ∈ (runs kinds env).touched (.thread j) (ofState st)
    · exact t2 x h
    · rw [t3 x (by rw [show (runs kinds env).guard x = guard x from rfl, hx]; simp) h,
        u3 x (by rw [show (runs kinds env).guard x = guard x from rfl, hx]; simp) h, hsh x l hx]
  have tmain' : ∀ n : Mem, n .main = ofState st' .main → t .main = goto n (.insert b) .main := by
    intro n hn
    rw [tmain, goto_main, hn, hmain]
    rcases hm with ⟨hm, -⟩ | hm
    · rw [hm, goto_main]
    · rw [hm, goto_main, wakeMem_main]
  have done : ∀ n : Mem, n .main = ofState st' .main → (∀ k, t (.phase k) = n (.phase k)) →
      (∀ x l, guard x = .inl l → ofState st' x = n x) → t = goto n (.insert b) := by
    intro n hn hk hsn
    funext x
    cases hx : guard x with
    | inl l =>
      rw [tshared x l hx, goto_shared _ _ hx]
      exact hsn x l hx
    | inr a =>
      cases x <;> cases hx
      · exact tmain' n hn
      · rw [goto_phase]
        exact hk _
  rw [r2]
  by_cases hij : i = j
  · subst hij
    refine .late i b hpc (done _ rfl (fun k => ?_) fun _ _ _ => rfl) fun _ => hj
    by_cases hk : k = i
    · subst hk
      exact t1 (.phase k) rfl
    · rw [tphase k hk, sphase k hk]
      rcases hm with ⟨hm, -⟩ | hm
      · rw [hm, goto_phase]
      · rw [hm, goto_phase, wakeMem_of_ne _ _ (by simpa using hk)]
  · have hi' : (st'.thr i).phase = (st.thr i).phase := sphase i hij
    rcases hm with ⟨hm, hlt⟩ | hm
    · refine .late i b hpc (done _ rfl (fun k => ?_) fun _ _ _ => rfl) fun h => hlt (by rw [← hi']; exact h)
      by_cases hk : k = j
      · subst hk
        exact t1 (.phase k) rfl
      · rw [tphase k hk, sphase k hk, hm, goto_phase]
    · refine .woken i b hpc (done _ (wakeMem_main _ _) (fun k => ?_) fun _ _ hx => (wakeMem_shared _ _ hx).symm)
      by_cases hk : k = j
      · subst hk
        rw [wakeMem_of_ne _ _ (by simpa using Ne.symm hij)]
        exact t1 (.phase k) rfl
      · rw [tphase k hk, hm, goto_phase]
        by_cases hki : k = i
        · subst hki
          unfold wakeMem
          rw [show ofState st' (.phase k) = ofState st (.phase k) from sphase k hk]
          split
          · rw [Function.update_self, Function.update_self]
          · exact (sphase k hk).symm
        · rw [wakeMem_of_ne _ _ (by simpa using hki), wakeMem_of_ne _ _ (by simpa using hki), sphase k hk]

/-- Every state of the machine with large steps can be followed. -/
theorem follows {st : Run.State} (h : Run.Reachable env (Run.initial kinds fs todo) st) :
    Fixed kinds st ∧ ∃ c, Reachable (runs kinds env) (initial kinds fs todo) c ∧ (∀ a, c.prog a = .out) ∧
      Follows kinds st c.mem := by
  have hl := laws kinds.length (fun i => kinds[i]?.getD false) env
  induction h with
  | refl => exact ⟨⟨rfl, fun _ => rfl⟩, initial kinds fs todo, .refl, fun _ => rfl, .same rfl⟩
  | @step st st' l _ hs ih =>
    obtain ⟨hf, c, hr, ho, hfol⟩ := ih
    have hi := (refines hr).1
    obtain ⟨hf', u, hu, hu'⟩ := hf.step hs
    refine ⟨hf', ?_⟩
    suffices h : ∃ c', Reachable (runs kinds env) c c' ∧ (∀ a, c'.prog a = .out) ∧ Follows kinds st' c'.mem by
      obtain ⟨c', h1, h2⟩ := h
      exact ⟨c', hr.trans h1, h2⟩
    have sync : ∀ a m, (runs kinds env).sync a c.mem m →
        ∃ c', Reachable (runs kinds env) c c' ∧ (∀ a, c'.prog a = .out) ∧ c'.mem = m := fun a m hm => by
      obtain ⟨c', h1, h2, h3⟩ := syncing (ho a) hm
      exact ⟨c', h1, fun a => by rw [h3]; exact ho a, h2⟩
    cases l with
    | thread j =>
      cases hfol with
      | late i b hp hm hlt => exact late_thread hf hs hi ho hp (Or.inl ⟨hm, hlt⟩)
      | woken i b hp hm => exact late_thread hf hs hi ho hp (Or.inr hm)
      | same hm =>
        obtain ⟨hj, h1, h2⟩ := thread_not_rest hf hs
        by_cases hn : ∃ i b, st.pc = .notify i b
        · obtain ⟨i, b, hp⟩ := hn
          obtain ⟨c', r1, r2, r3⟩ := sync .main (goto (wakeMem (ofState st) i) (.insert b)) (by
            rw [hm]
            exact sync_main_iff.2 (Or.inl ⟨i, b, hp, rfl⟩))
          obtain ⟨c'', r4, r5⟩ := late_thread hf hs (refines (hr.trans r1)).1 r2 hp (Or.inr r3)
          exact ⟨c'', r1.trans r4, r5⟩
        · obtain ⟨c', r1, r2, r3⟩ := whole hl (c := c) (a := .thread j) (ch := ⟨false, false, 0⟩) (ho _) (by
            rw [hm]
            rintro (h | h | h)
            · exact h hj
            · exact h1 h
            · exact h2 h) (fun l _ => owner_free hi ho fun i b h => by
              rw [hm] at h
              exact absurd ⟨i, b, h⟩ hn) (by rw [hm]; exact hf.act (a := .thread j) hs)
          exact ⟨c', r1, fun a => by rw [r3]; exact ho a, .same r2⟩
    | master ch =>
      change Run.masterStep st ch = _ at hs
      have notify : ∀ i b, st.pc = .notify i b → ofState st' = goto (wakeMem (ofState st) i) (.insert b) := by
        intro i b hp
        rw [master_notify hp] at hs
        cases hs
        rw [ofState_pc, ofState_wakes]
      cases hfol with
      | woken i b hp hm => exact ⟨c, .refl, ho, .same (by rw [hm, notify i b hp])⟩
      | late i b hp hm hlt =>
        by_cases hsl : (st.thr i).phase = .sleep
        · obtain ⟨c', r1, r2, r3⟩ := sync (.thread i) (wakeMem c.mem i) (sync_thread_iff.2 ⟨⟨hlt hsl, by
            rw [hm, goto_phase]; exact hsl⟩, rfl⟩)
          exact ⟨c', r1, r2, .same (by rw [r3, hm, wakeMem_goto, notify i b hp])⟩
        · exact ⟨c, .refl, ho, .same (by rw [hm, notify i b hp, wakeMem_awake hsl])⟩
      | same hm =>
        by_cases hsy : (∃ i b, st.pc = .notify i b) ∨ (∃ i, st.pc = .shutNotify i) ∨ ∃ i, st.pc = .join i
        · have h : ∃ i b, st.pc = .notify i b ∨ st.pc = .shutNotify i ∨ st.pc = .join i := by
            rcases hsy with ⟨i, b, h⟩ | ⟨i, h⟩ | ⟨i, h⟩
            · exact ⟨i, b, Or.inl h⟩
            · exact ⟨i, [], Or.inr (Or.inl h)⟩
            · exact ⟨i, [], Or.inr (Or.inr h)⟩
          obtain ⟨c', r1, r2, r3⟩ := sync .main (ofState u) (by
            rw [hm]
            exact .main (ofState st) ch u h hu)
          exact ⟨c', r1, r2, .same (by rw [r3, hu'])⟩
        · rw [not_or, not_or] at hsy
          have hmr : ¬ mainRests (ofState st .main) := by
            rcases main_not_rest hs with h | h | h | h
            · exact absurd h hsy.1
            · exact absurd h hsy.2.1
            · exact absurd h hsy.2.2
            · exact h
          obtain ⟨c', r1, r2, r3⟩ := whole hl (c := c) (a := .main) (ch := ch) (ho _) (by rw [hm]; exact hmr)
            (fun l _ => owner_free hi ho fun i b h => by
              rw [hm] at h
              exact absurd ⟨i, b, h⟩ hsy.1) (by rw [hm]; exact hf.act (a := .main) hs)
          exact ⟨c', r1, fun a => by rw [r3]; exact ho a, .same r2⟩
    | spurious j =>
      have hw : (j < kinds.length ∧ (st.thr j).phase = .sleep) ∧ st' = Run.wake st j := by
        have hs' : (if j < st.size ∧ (st.thr j).phase = .sleep then Res.ok (some (Run.wake st j)) else .ok none) =
          .ok (some st') := hs
        split at hs'
        · next h =>
          cases hs'
          rw [hf.1] at h
          exact ⟨h, rfl⟩
        · cases hs'
      obtain ⟨⟨hj, hsl⟩, rfl⟩ := hw
      have hpc : (Run.wake st j).pc = st.pc := by
        unfold Run.wake
        split <;> rfl
      have wakes : (c.mem (.phase j) : Run.Phase) = .sleep → ∃ c', Reachable (runs kinds env) c c' ∧ (∀ a, c'.prog a = .out) ∧
          c'.mem = wakeMem c.mem j := fun h => sync (.thread j) _ (sync_thread_iff.2 ⟨⟨hj, h⟩, rfl⟩)
      cases hfol with
      | same hm =>
        obtain ⟨c', r1, r2, r3⟩ := wakes (by rw [hm]; exact hsl)
        exact ⟨c', r1, r2, .same (by rw [r3, hm, ofState_wakes])⟩
      | late i b hp hm hlt =>
        obtain ⟨c', r1, r2, r3⟩ := wakes (by rw [hm, goto_phase]; exact hsl)
        refine ⟨c', r1, r2, .late i b (hpc.trans hp) (by rw [r3, hm, ofState_wakes, wakeMem_goto]) fun h => ?_⟩
        apply hlt
        have h2 : (ofState (Run.wake st j) (.phase i) : Run.Phase) = .sleep := h
        rw [ofState_wakes] at h2
        by_cases hij : i = j
        · subst hij
          exact hsl
        · rw [wakeMem_of_ne _ _ (by simpa using hij)] at h2
          exact h2
      | woken i b hp hm =>
        by_cases hij : i = j
        · subst hij
          refine ⟨c, .refl, ho, .late i b (hpc.trans hp) (by rw [hm, ofState_wakes]) fun _ => hj⟩
        · obtain ⟨c', r1, r2, r3⟩ := wakes (by
            rw [hm, goto_phase, wakeMem_of_ne _ _ (by simpa using Ne.symm hij)]; exact hsl)
          exact ⟨c', r1, r2, .woken i b (hpc.trans hp) (by
            rw [r3, hm, wakeMem_goto, ofState_wakes, wakeMem_comm _ hij])⟩

end Locks
end Hycu
