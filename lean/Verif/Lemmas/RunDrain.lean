import Verif.Lemmas.RunRefines
import Verif.Spec.Locks

/-!
Critical sections end.
-/

namespace Hycu
namespace Locks

variable {env : Run.Env} {kinds : List Bool} {fs : FileSystem} {todo : List Run.Cmd}

theorem Drains.reachable {c₀ c c' : Config Agent Lock Var Val} (h : Drains (runs kinds env) c c')
    (h0 : Reachable (runs kinds env) c₀ c) : Reachable (runs kinds env) c₀ c' := by
  induction h with
  | refl => exact h0
  | step a _ _ hs ih => exact .step a ih hs

theorem Drains.head {S : System Agent Lock Var Run.Choice Val} {c c' c'' : Config Agent Lock Var Val} {a : Agent}
    (ha : c.prog a ≠ .out ∨ ∃ l, c.owner l = some a) (hs : Step S a c c') (h : Drains S c' c'') : Drains S c c'' := by
  induction h with
  | refl => exact .step a .refl ha hs
  | step b _ hb h ih => exact .step b ih hb h

/-- What remains to be done. -/
def weight : Prog Lock Var Val → Nat
  | .out => 0
  | .entering k _ => 40 - k
  | .leaving ws _ ls => 1 + ws.length + ls.length

/-- The notification that remains to be made. -/
def owed (m : Mem) : Nat := match (m .main : MainData).pc with
  | .notify _ _ => 10
  | _ => 0

def total (size : Nat) (c : Config Agent Lock Var Val) : Nat :=
  weight (c.prog .main) + owed c.mem + ((List.range size).map fun i => weight (c.prog (.thread i))).sum

/-- Threads that do not exist do nothing. -/
theorem absent {c : Config Agent Lock Var Val} (h : Reachable (runs kinds env) (initial kinds fs todo) c) (i : Nat)
    (hi : kinds.length ≤ i) : c.prog (.thread i) = .out := by
  induction h with
  | refl => rfl
  | @step c c' a _ hs ih =>
    by_cases ha : a = .thread i
    · subst ha
      cases hs with
      | enter reg h hr hp => exact absurd (Or.inl (by omega)) hr
      | sync m reg h hs =>
        have := (sync_thread_iff.1 hs).1.1
        omega
      | acquire k reg l h => rw [ih] at h; cases h
      | read k reg l h => rw [ih] at h; cases h
      | compute k reg s ch h => rw [ih] at h; cases h
      | write ws reg ls x h => rw [ih] at h; cases h
      | release reg l ls h => rw [ih] at h; cases h
      | exit reg h => rw [ih] at h; cases h
    · have key : ∀ p, Function.update c.prog a p (.thread i) = .out := fun p => by
        rw [Function.update_of_ne (Ne.symm ha)]
        exact ih
      cases hs <;> exact key _
  | scribble _ hs ih => cases hs <;> exact ih

theorem plan_length (kinds : List Bool) (a : Agent) (m : Mem) :
    ((runs kinds env).plan a m).length ≤ 5 := by
  cases a with
  | main =>
    show (mainPlan kinds.length (m .main) (m .idle)).length ≤ 5
    unfold mainPlan
    split <;> try (simp; done)
    · split <;> simp
    · cases chosen (m .main) (m .idle) <;> simp
    · split <;> simp
  | thread i =>
    show (threadPlan i (m (.phase i))).length ≤ 5
    cases m (.phase i) <;> simp [threadPlan]

theorem held_length (kinds : List Bool) (a : Agent) (m : Mem) :
    ((runs kinds env).held a m).length ≤ 1 := by
  cases a with
  | main =>
    show (match (m .main : MainData).pc with | .notify _ _ => [Lock.pool] | _ => []).length ≤ 1
    split <;> simp
  | thread i => exact Nat.zero_le _

theorem extra_length (kinds : List Bool) (a : Agent) (m : Mem) :
    ((runs kinds env).extra a m).length ≤ 1 := by
  cases a with
  | main =>
    show (mainExtra kinds.length (m .main)).length ≤ 1
    unfold mainExtra
    split
    · split <;> simp
    · simp
  | thread i => exact Nat.zero_le _

/-- The sum changes with the agent that makes a step. -/
theorem total_update {size : Nat} {c c' : Config Agent Lock Var Val} {a : Agent} {p : Prog Lock Var Val}
    (hp : c'.prog = Function.update c.prog a p) (ha : ∀ i, a = .thread i → i < size)
    (hw : weight p + owed c'.mem < weight (c.prog a) + owed c.mem) : total size c' < total size c := by
  have sums : ∀ (f g : Nat → Nat) (j : Nat) (l : List Nat), l.Nodup → j ∈ l → (∀ i, i ≠ j → f i = g i) →
      (l.map f).sum + g j = (l.map g).sum + f j := by
    intro f g j l hn hj hfg
    induction l with
    | nil => cases hj
    | cons i l ih =>
      rw [List.nodup_cons] at hn
      by_cases hij : i = j
      · subst hij
        have : l.map f = l.map g := List.map_congr_left fun k hk => hfg k (by rintro rfl; exact hn.1 hk)
        simp only [List.map_cons, List.sum_cons, this]
        omega
      · have := ih hn.2 ((List.mem_cons.1 hj).resolve_left (Ne.symm hij))
        simp only [List.map_cons, List.sum_cons, hfg i hij]
        omega
  unfold total
  cases a with
  | main =>
    have h1 : c'.prog .main = p := by rw [hp, Function.update_self]
    have h2 : ∀ i, c'.prog (.thread i) = c.prog (.thread i) := fun i => by rw [hp, Function.update_of_ne (by simp)]
    simp only [h1, h2]
    omega
  | thread j =>
    have h1 : c'.prog .main = c.prog .main := by rw [hp, Function.update_of_ne (by simp)]
    have h2 : c'.prog (.thread j) = p := by rw [hp, Function.update_self]
    have h3 := sums (fun i => weight (c'.prog (.thread i))) (fun i => weight (c.prog (.thread i))) j (List.range size)
      List.nodup_range (List.mem_range.2 (ha j rfl)) fun i hi => by
        show weight (c'.prog (.thread i)) = weight (c.prog (.thread i))
        rw [hp, Function.update_of_ne (by simpa using hi)]
    simp only [h2] at h3
    rw [h1]
    omega

theorem owed_main {m n : Mem} (h : m .main = n .main) : owed m = owed n := by
  unfold owed
  rw [h]

theorem owed_le (m : Mem) : owed m ≤ 10 := by
  unfold owed
  split <;> omega

/-- Every step of an agent that is in a section, or holds a mutex, brings the end of the sections nearer. -/
theorem total_lt {c c' : Config Agent Lock Var Val} (hr : Reachable (runs kinds env) (initial kinds fs todo) c) {a : Agent}
    (ha : c.prog a ≠ .out ∨ (runs kinds env).held a c.mem ≠ []) (hs : Step (runs kinds env) a c c') :
    total kinds.length c' < total kinds.length c := by
  have hi := (refines hr).1
  have hlt : ∀ i, a = .thread i → i < kinds.length := by
    rintro i rfl
    by_contra hn
    rcases ha with ha | ha
    · exact ha (absent hr i (by omega))
    · exact ha rfl
  cases hs with
  | enter reg h hr hp =>
    exfalso
    rcases ha with ha | ha
    · exact ha h
    · cases a with
      | main =>
        change (match (c.mem .main : MainData).pc with | .notify _ _ => [Lock.pool] | _ => []) ≠ [] at ha
        split at ha
        · next i b hpc =>
          refine hr ?_
          show mainRests (c.mem .main)
          unfold mainRests
          rw [hpc]
          trivial
        · exact ha rfl
      | thread i => exact ha rfl
  | acquire k reg l h hk hf =>
    refine total_update rfl hlt ?_
    have h1 := hi.le _ _ _ h
    have h2 := plan_length (env := env) kinds a reg
    rw [h]
    show 40 - (k + 1) + owed c.mem < 40 - k + owed c.mem
    have : k < ((runs kinds env).plan a reg).length := (List.getElem?_eq_some_iff.1 hk).1
    omega
  | read k reg x h hk =>
    refine total_update rfl hlt ?_
    have h2 := plan_length (env := env) kinds a reg
    rw [h]
    show 40 - (k + 1) + owed c.mem < 40 - k + owed c.mem
    have : k < ((runs kinds env).plan a reg).length := (List.getElem?_eq_some_iff.1 hk).1
    omega
  | compute k reg s ch h hk hs =>
    refine total_update rfl hlt ?_
    have h2 := plan_length (env := env) kinds a reg
    have h3 := held_length (env := env) kinds a reg
    have h4 := extra_length (env := env) kinds a reg
    rw [h]
    have h5 := owed_le ((c.setPrivate (runs kinds env) a s).go a (.leaving ((runs kinds env).touched a reg) s
      (((runs kinds env).held a reg ++ locks ((runs kinds env).plan a reg)).filter
        fun l => l ∉ (runs kinds env).held a s))).mem
    have h6 : ((runs kinds env).touched a reg).length ≤ 6 := by
      unfold System.touched
      rw [List.length_append]
      have : (reads ((runs kinds env).plan a reg)).length ≤ _ := List.length_filterMap_le _ _
      omega
    have h7 : (((runs kinds env).held a reg ++ locks ((runs kinds env).plan a reg)).filter
        fun l => l ∉ (runs kinds env).held a s).length ≤ 6 := by
      refine (List.length_filter_le _ _).trans ?_
      rw [List.length_append]
      have : (locks ((runs kinds env).plan a reg)).length ≤ _ := List.length_filterMap_le _ _
      omega
    show 1 + _ + _ + _ < 40 - k + owed c.mem
    omega
  | write ws reg ls x h hx =>
    have hne : x ≠ .main := by
      rintro rfl
      obtain ⟨l, hg, _⟩ := hi.write_owned h hx
      cases hg
    refine total_update rfl hlt ?_
    rw [h]
    have h1 : (ws.filter fun y => y ≠ x).length < ws.length :=
      List.length_filter_lt_length_iff_exists.2 ⟨x, hx, by simp⟩
    have h2 : owed ((c.store x (reg x)).go a (.leaving (ws.filter fun y => y ≠ x) reg ls)).mem = owed c.mem :=
      owed_main (Function.update_of_ne hne.symm _ _)
    rw [h2]
    show 1 + _ + _ + _ < 1 + _ + _ + _
    omega
  | release reg l ls h =>
    refine total_update rfl hlt ?_
    rw [h]
    show 1 + 0 + ls.length + owed c.mem < 1 + 0 + (ls.length + 1) + owed c.mem
    omega
  | exit reg h =>
    refine total_update rfl hlt ?_
    rw [h]
    show 0 + owed c.mem < 1 + 0 + 0 + owed c.mem
    omega
  | sync m reg h hs =>
    rcases ha with ha | ha
    · exact absurd h ha
    · refine total_update rfl hlt ?_
      cases a with
      | thread i => exact absurd rfl ha
      | main =>
        change (match (c.mem .main : MainData).pc with | .notify _ _ => [Lock.pool] | _ => []) ≠ [] at ha
        split at ha
        · next i b hpc =>
          have hm : m = goto (wakeMem c.mem i) (.insert b) := by
            obtain ⟨i', b', hp, rfl⟩ | ⟨i', hp, rfl⟩ | ⟨i', hp, hd, rfl⟩ := sync_main_iff.1 hs
            · rw [hpc] at hp
              cases hp
              rfl
            · rw [hpc] at hp; cases hp
            · rw [hpc] at hp; cases hp
          have h1 : owed m = 0 := by
            unfold owed
            rw [hm, goto_main]
          have h2 : owed c.mem = 10 := by
            unfold owed
            rw [hpc]
          have h3 : (((runs kinds env).held .main c.mem).filter fun l => l ∉ (runs kinds env).held .main m).length ≤ 1 :=
            (List.length_filter_le _ _).trans (held_length (env := env) kinds _ _)
          rw [h, h2]
          show 1 + 0 + _ + owed m < 0 + 10
          rw [h1]
          omega
        · exact absurd rfl ha

/-- All sections can be brought to an end without beginning new ones. -/
theorem drains {c : Config Agent Lock Var Val} (hr : Reachable (runs kinds env) (initial kinds fs todo) c)
    (hf : ∀ c', Reachable (runs kinds env) (initial kinds fs todo) c' → ¬ Fails (runs kinds env) c') :
    ∃ c', Drains (runs kinds env) c c' ∧ (∀ a, c'.prog a = .out) ∧ ∀ l, c'.owner l = none := by
  have hl := laws kinds.length (fun i => kinds[i]?.getD false) env
  generalize hn : total kinds.length c = n
  induction n using Nat.strong_induction_on generalizing c with
  | _ n ih =>
    have hi := (refines hr).1
    have step : ∀ b c', Step (runs kinds env) b c c' → (c.prog b ≠ .out ∨ (runs kinds env).held b c.mem ≠ []) →
        ∃ c'', Drains (runs kinds env) c c'' ∧ (∀ a, c''.prog a = .out) ∧ ∀ l, c''.owner l = none := by
      intro b c' hs hb
      obtain ⟨c'', h1, h2⟩ := ih _ (hn ▸ total_lt hr hb hs) (.step b hr hs) rfl
      refine ⟨c'', .head ?_ hs h1, h2⟩
      rcases hb with hb | hb
      · exact Or.inl hb
      · obtain ⟨l, hl⟩ := List.exists_mem_of_ne_nil _ hb
        exact Or.inr ⟨l, (hi.own b l).1 (List.mem_append_left _ hl)⟩
    by_cases ho : ∀ a, c.prog a = .out
    · by_cases hp : ∃ i b, (c.mem .main : MainData).pc = .notify i b
      · obtain ⟨i, b, hp⟩ := hp
        refine step .main _ (.sync c _ c.mem (ho _) (sync_main_iff.2 (Or.inl ⟨i, b, hp, rfl⟩))) (Or.inr ?_)
        show (match (c.mem .main : MainData).pc with | .notify _ _ => [Lock.pool] | _ => []) ≠ []
        rw [hp]
        simp
      · exact ⟨c, .refl, ho, fun l => owner_free hi ho fun i b h => absurd ⟨i, b, h⟩ hp⟩
    · push Not at ho
      obtain ⟨a, ha⟩ := ho
      rcases hi.progress hl ha with h | ⟨b, c', hs, hb⟩
      · exact absurd h (hf c hr)
      · exact step b c' hs hb

end Locks
end Hycu
