import Verif.Lemmas.PoolDone

/-!
What is known about the sections that have not been started, for runs with one or several processes.
-/

namespace Hycu
namespace Run

/-- The configurations among the calls to be made. -/
def configsOf (todo : List Cmd) : List ConfigNode :=
  todo.filterMap fun c => match c with | .config c => some c | .assign _ => none

theorem configsOf_append (a b : List Cmd) : configsOf (a ++ b) = configsOf a ++ configsOf b := List.filterMap_append

theorem configsOf_assign (bs : List Block) : configsOf (bs.map .assign) = [] := by
  unfold configsOf
  rw [List.filterMap_eq_nil_iff]
  intro c hc
  obtain ⟨b, _, rfl⟩ := List.mem_map.1 hc
  rfl

theorem configsOf_program (ss : List Sect) : configsOf (program ss) = ss.map fun s => s.cfg := by
  induction ss with
  | nil => rfl
  | cons s ss ih =>
    have : program (s :: ss) = [.config s.cfg] ++ (s.blocks.map .assign ++ program ss) := rfl
    rw [this, configsOf_append, configsOf_append, configsOf_assign, ih]
    rfl

theorem configsOf_mem {todo : List Cmd} {c : ConfigNode} : c ∈ configsOf todo ↔ Cmd.config c ∈ todo := by
  unfold configsOf
  rw [List.mem_filterMap]
  constructor
  · rintro ⟨x, hx, h⟩
    cases x with
    | config c' => cases h; exact hx
    | assign b => cases h
  · exact fun h => ⟨_, h, rfl⟩

/-- The directories of the configurations to come are as in the beginning, except that the first of them may have been
created.  If the destructor is called although there are further configurations, then the next one has a number that is
zero, or its directory does not exist.  All configurations that have been set have no zeros. -/
structure Ahead (fs₀ : FileSystem) (cs : List ConfigNode) (fs : FileSystem) (todo : List Cmd) (leaving ver : Bool) :
    Prop where
  later : ∀ c ∈ (configsOf todo).tail, fs c.resultPath = fs₀ c.resultPath
  head : ∀ c ∈ (configsOf todo).head?, fs c.resultPath = fs₀ c.resultPath ∨
    (fs₀ c.resultPath = none ∧ fs c.resultPath = some [])
  left : leaving = true → todo = [] ∨ ∃ c rest, todo = .config c :: rest ∧ (¬ Nonzero c ∨ fs c.resultPath = none)
  ver : ver = true → ∀ c rest, todo = .config c :: rest → Nonzero c
  passed : ∀ c ∈ cs, c ∈ configsOf todo ∨ Nonzero c

section

variable {fs₀ fs : FileSystem} {cs : List ConfigNode} {todo : List Cmd} {lv vr lv' vr' : Bool}

theorem Ahead.start (fs₀ : FileSystem) (ss : List Sect) : Ahead fs₀ (ss.map fun s => s.cfg) fs₀ (program ss) false false :=
  ⟨fun _ _ => rfl, fun _ _ => Or.inl rfl, (by intro h; cases h), (by intro h; cases h),
    fun c hc => Or.inl (by rw [configsOf_program]; exact hc)⟩

theorem Ahead.keep (h : Ahead fs₀ cs fs todo lv vr) (h1 : lv' = true → lv = true) (h2 : vr' = true → vr = true) :
    Ahead fs₀ cs fs todo lv' vr' :=
  ⟨h.later, h.head, fun hl => h.left (h1 hl), fun hv => h.ver (h2 hv), h.passed⟩

/-- A block is assigned or skipped. -/
theorem Ahead.assign {b : Block} (h : Ahead fs₀ cs fs (.assign b :: todo) lv vr) :
    Ahead fs₀ cs fs todo false false :=
  ⟨h.later, h.head, (by intro h; cases h), (by intro h; cases h), h.passed⟩

/-- A configuration is set. -/
theorem Ahead.config {c : ConfigNode} (h : Ahead fs₀ cs fs (.config c :: todo) lv true) :
    Ahead fs₀ cs fs todo false false := by
  refine ⟨fun c' hc' => h.later c' ?_, fun c' hc' => Or.inl (h.later c' ?_), (by intro h; cases h),
    (by intro h; cases h), fun c' hc' => ?_⟩
  · exact List.mem_of_mem_tail hc'
  · exact List.mem_of_mem_head? hc'
  · rcases h.passed c' hc' with h1 | h1
    · rcases List.mem_cons.1 h1 with rfl | h1
      · exact Or.inr (h.ver rfl _ _ rfl)
      · exact Or.inl h1
    · exact Or.inr h1

/-- A file is written. -/
theorem Ahead.write (h : Ahead fs₀ cs fs todo lv vr) {p : List Char} (d' : Dir)
    (hne : ∀ c ∈ configsOf todo, c.resultPath ≠ p) (h1 : lv' = true → lv = true) (h2 : vr' = true → vr = true) :
    Ahead fs₀ cs (fs.set p d') todo lv' vr' := by
  have hset : ∀ c ∈ configsOf todo, fs.set p d' c.resultPath = fs c.resultPath := fun c hc => by
    simp only [FileSystem.set, if_neg (hne c hc)]
  refine ⟨fun c hc => ?_, fun c hc => ?_, fun hl => ?_, fun hv => h.ver (h2 hv), h.passed⟩
  · rw [hset c (List.mem_of_mem_tail hc)]
    exact h.later c hc
  · rw [hset c (List.mem_of_mem_head? hc)]
    exact h.head c hc
  · rcases h.left (h1 hl) with h3 | ⟨c, rest, h3, h4⟩
    · exact Or.inl h3
    · refine Or.inr ⟨c, rest, h3, ?_⟩
      rw [hset c (by rw [h3]; exact List.mem_cons_self)]
      exact h4

/-- A configuration is verified. -/
theorem Ahead.verify {c : ConfigNode} (h : Ahead fs₀ cs fs (.config c :: todo) lv vr) {create : Bool}
    {v : FileSystem × Bool} (hv : c.verify fs (.ok create) = .ok v)
    (hn : ((configsOf (.config c :: todo)).map fun c => c.resultPath).Nodup) :
    Ahead fs₀ cs v.1 (.config c :: todo) (!v.2) v.2 := by
  have hne : ∀ c' ∈ configsOf todo, c'.resultPath ≠ c.resultPath := by
    intro c' hc' he
    have h1 : (c.resultPath :: (configsOf todo).map fun c => c.resultPath).Nodup := hn
    exact (List.nodup_cons.1 h1).1 (List.mem_map.2 ⟨c', hc', he⟩)
  have hfs : ∀ c' ∈ configsOf todo, v.1 c'.resultPath = fs c'.resultPath := by
    intro c' hc'
    unfold ConfigNode.verify at hv
    split at hv
    · split at hv
      · cases hv
        rfl
      · cases create with
        | false =>
          cases hv
          rfl
        | true =>
          cases hv
          simp only [FileSystem.set, if_neg (hne c' hc')]
    · cases hv
      rfl
  have hhead := h.head c rfl
  refine ⟨fun c' hc' => (hfs c' hc').trans (h.later c' hc'), fun c' hc' => ?_, fun hl => Or.inr ⟨c, todo, rfl, ?_⟩,
    fun hv' c' rest ht => ?_, h.passed⟩
  · cases hc'
    unfold ConfigNode.verify at hv
    split at hv
    · split at hv
      · cases hv
        exact hhead
      · rename_i hp
        cases create with
        | false =>
          cases hv
          exact hhead
        | true =>
          cases hv
          rcases hhead with h1 | ⟨h1, h2⟩
          · refine Or.inr ⟨?_, by simp [FileSystem.set]⟩
            rw [← h1]
            simpa [Option.isSome_iff_ne_none] using hp
          · rw [h2] at hp
            exact absurd rfl hp
    · cases hv
      exact hhead
  · have hl : v.2 = false := by simpa using hl
    unfold ConfigNode.verify at hv
    split at hv
    · split at hv
      · cases hv
        exact Or.inl fun hz => hz.package (by simpa using hl)
      · rename_i hp
        cases create with
        | false =>
          cases hv
          exact Or.inr (by simpa [Option.isSome_iff_ne_none] using hp)
        | true =>
          cases hv
          exact Or.inl fun hz => hz.package (by simpa using hl)
    · rename_i hz
      exact Or.inl fun h1 => hz ⟨h1.prime, h1.exponent, h1.genus, h1.count⟩
  · cases ht
    unfold ConfigNode.verify at hv
    split at hv
    · rename_i hz
      obtain ⟨z1, z2, z3, z4⟩ := hz
      split at hv
      · cases hv
        exact ⟨z1, z2, z3, z4, by simpa using hv'⟩
      · cases create with
        | false =>
          cases hv
          cases hv'
        | true =>
          cases hv
          exact ⟨z1, z2, z3, z4, by simpa using hv'⟩
    · cases hv
      cases hv'

end

end Run
end Hycu
