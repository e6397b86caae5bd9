import Verif.Lemmas.BlockMain

/-
The values `as_position`, `as_block` and `as_block_enumerator` return, and the packages they stand for.
-/

namespace Hycu
namespace BlockIterator

theorem resolveDeps_ok (m : OMap Nat (Nat × OMap Nat (List Nat))) (pos : List Nat)
    (hnd : (m.map Prod.fst).Nodup)
    (hj : ∀ i j M, (i, j, M) ∈ m → j ∉ m.map Prod.fst)
    (h : ∀ i j M, (i, j, M) ∈ m → ∃ c T k x, pos[j]? = some c ∧ M.find? c = some T ∧
      pos[i]? = some k ∧ T[k]? = some x) :
    ∃ pos', resolveDeps m pos = .ok pos' ∧ pos'.length = pos.length ∧
      (∀ i, i ∉ m.map Prod.fst → pos'[i]? = pos[i]?) ∧
      ∀ i j M c T k, (i, j, M) ∈ m → pos[j]? = some c → M.find? c = some T → pos[i]? = some k →
        pos'[i]? = T[k]? := by
  induction m generalizing pos with
  | nil => exact ⟨pos, rfl, rfl, by simp, by simp⟩
  | cons e m ih =>
    obtain ⟨i, j, M⟩ := e
    rw [List.map_cons, List.nodup_cons] at hnd
    obtain ⟨c, T, k, x, h1, h2, h3, h4⟩ := h i j M (by simp)
    have hil : i < pos.length := (List.getElem?_eq_some_iff.1 h3).1
    obtain ⟨pos', g1, g2, g3, g4⟩ := ih (pos.set i x) hnd.2 (by
      intro i' j' M' hm hj'
      exact hj i' j' M' (by simp [hm]) (by simp only [List.map_cons, List.mem_cons]; exact .inr hj')) (by
      intro i' j' M' hm
      obtain ⟨c', T', k', x', a1, a2, a3, a4⟩ := h i' j' M' (by simp [hm])
      refine ⟨c', T', k', x', ?_, a2, ?_, a4⟩
      · rw [List.getElem?_set_ne, a1]
        rintro rfl
        exact hj i' i M' (List.mem_cons_of_mem _ hm) (by simp)
      · rw [List.getElem?_set_ne, a3]
        rintro rfl
        exact hnd.1 (List.mem_map.2 ⟨_, hm, rfl⟩))
    refine ⟨pos', ?_, by rw [g2, List.length_set], ?_, ?_⟩
    · simp only [resolveDeps, rd_eq_ok.2 h1, rd_eq_ok.2 h3, Res.bind_ok, h2, Option.getD_some,
        rd_eq_ok.2 h4, g1]
    · intro i' hi'
      simp only [List.map_cons, List.mem_cons, not_or] at hi'
      rw [g3 i' hi'.2, List.getElem?_set_ne (Ne.symm hi'.1)]
    · intro i' j' M' c' T' k' hm a1 a2 a3
      rcases List.mem_cons.1 hm with hm | hm
      · cases hm
        rw [g3 i hnd.1, List.getElem?_set_self hil]
        rw [h1] at a1; cases a1
        rw [h2] at a2; cases a2
        rw [h3] at a3; cases a3
        exact h4.symm
      · refine g4 i' j' M' c' T' k' hm ?_ a2 ?_
        · rw [List.getElem?_set_ne, a1]
          rintro rfl
          exact hj i' i M' (List.mem_cons_of_mem _ hm) (by simp)
        · rw [List.getElem?_set_ne, a3]
          rintro rfl
          exact hnd.1 (List.mem_map.2 ⟨_, hm, rfl⟩)

theorem resolveSets_ok (m : OMap Nat (List Nat)) (pos : List Nat) (hnd : (m.map Prod.fst).Nodup)
    (h : ∀ i S, (i, S) ∈ m → ∃ k x, pos[i]? = some k ∧ S[k]? = some x) :
    ∃ pos', resolveSets m pos = .ok pos' ∧ pos'.length = pos.length ∧
      (∀ i, i ∉ m.map Prod.fst → pos'[i]? = pos[i]?) ∧
      ∀ i S k, (i, S) ∈ m → pos[i]? = some k → pos'[i]? = S[k]? := by
  induction m generalizing pos with
  | nil => exact ⟨pos, rfl, rfl, by simp, by simp⟩
  | cons e m ih =>
    obtain ⟨i, S⟩ := e
    rw [List.map_cons, List.nodup_cons] at hnd
    obtain ⟨k, x, h3, h4⟩ := h i S (by simp)
    have hil : i < pos.length := (List.getElem?_eq_some_iff.1 h3).1
    obtain ⟨pos', g1, g2, g3, g4⟩ := ih (pos.set i x) hnd.2 (by
      intro i' S' hm
      obtain ⟨k', x', a3, a4⟩ := h i' S' (by simp [hm])
      refine ⟨k', x', ?_, a4⟩
      rw [List.getElem?_set_ne, a3]
      rintro rfl
      exact hnd.1 (List.mem_map.2 ⟨_, hm, rfl⟩))
    refine ⟨pos', ?_, by rw [g2, List.length_set], ?_, ?_⟩
    · simp only [resolveSets, rd_eq_ok.2 h3, Res.bind_ok, rd_eq_ok.2 h4, g1]
    · intro i' hi'
      simp only [List.map_cons, List.mem_cons, not_or] at hi'
      rw [g3 i' hi'.2, List.getElem?_set_ne (Ne.symm hi'.1)]
    · intro i' S' k' hm a3
      rcases List.mem_cons.1 hm with hm | hm
      · cases hm
        rw [g3 i hnd.1, List.getElem?_set_self hil]
        rw [h3] at a3; cases a3
        exact h4.symm
      · refine g4 i' S' k' hm ?_
        rw [List.getElem?_set_ne, a3]
        rintro rfl
        exact hnd.1 (List.mem_map.2 ⟨_, hm, rfl⟩)

/-- The tuple `v` that the raw position `t` stands for (ranges keep the raw value). -/
structure Val (d : Descr) (t v : List Nat) : Prop where
  length_eq : v.length = d.length
  block : ∀ i lo hi, (i, lo, hi) ∈ d.blocks → v[i]? = t[i]?
  set : ∀ i S k, (i, S) ∈ d.sets → t[i]? = some k → v[i]? = S[k]?
  dep : ∀ i j M c T k, (i, j, M) ∈ d.deps → t[j]? = some c → (c, T) ∈ M → t[i]? = some k →
    v[i]? = T[k]?

/-- The tuples of the package of the raw position `t`. -/
structure Pack (d : Descr) (steps : Nat → Nat) (t u : List Nat) : Prop where
  length_eq : u.length = d.length
  block : ∀ i lo hi, (i, lo, hi) ∈ d.blocks → ∃ x y, t[i]? = some x ∧ u[i]? = some y ∧ x ≤ y ∧
    y < x + steps i ∧ y < hi
  set : ∀ i S k, (i, S) ∈ d.sets → t[i]? = some k → u[i]? = S[k]?
  dep : ∀ i j M c T k, (i, j, M) ∈ d.deps → t[j]? = some c → (c, T) ∈ M → t[i]? = some k →
    u[i]? = T[k]?

section

variable {d : Descr} {package : Nat} {it : BlockIterator} {steps : Nat → Nat}

theorem asPosition_ok (hv : d.Valid package) (hb : Built d package it steps) {t : List Nat}
    (ht : Raw d steps t) : ∃ v, asPosition { it with position := t } = .ok v ∧ Val d t v := by
  have hnd : (d.deps.map Prod.fst).Nodup := hv.deps_sorted.imp (fun h => Nat.ne_of_lt h)
  have hns : (d.sets.map Prod.fst).Nodup := hv.sets_sorted.imp (fun h => Nat.ne_of_lt h)
  obtain ⟨p1, g1, g2, g3, g4⟩ := resolveDeps_ok d.deps t hnd (by
    intro i j M hm hj
    rcases hv.dep_coupled i j M hm with ⟨S, hS, _⟩ | ⟨lo, hi, hS, _⟩
    · exact hv.disj_sd _ (List.mem_map_of_mem (f := Prod.fst) hS) hj
    · exact hv.disj_bd _ (List.mem_map_of_mem (f := Prod.fst) hS) hj) (by
    intro i j M hm
    obtain ⟨c, T, k, a1, a2, a3, a4⟩ := ht.dep i j M hm
    exact ⟨c, T, k, T[k], a1, OMap.find?_of_mem (sorted_of_keys (hv.dep_sorted i j M hm)) a2, a3,
      List.getElem?_eq_getElem a4⟩)
  obtain ⟨p2, k1, k2, k3, k4⟩ := resolveSets_ok d.sets p1 hns (by
    intro i S hm
    obtain ⟨k, a1, a2⟩ := ht.set i S hm
    refine ⟨k, S[k], ?_, List.getElem?_eq_getElem a2⟩
    rw [g3 i (hv.disj_sd i (List.mem_map_of_mem (f := Prod.fst) hm)), a1])
  refine ⟨p2, ?_, ?_, ?_, ?_, ?_⟩
  · simp only [asPosition, hb.deps_eq, hb.sets_eq, g1, Res.bind_ok, k1]
  · rw [k2, g2, ht.length_eq]
  · intro i lo hi hm
    have hi' := List.mem_map_of_mem (f := Prod.fst) hm
    rw [k3 i (hv.disj_bs i hi'), g3 i (hv.disj_bd i hi')]
  · intro i S k hm hk
    refine k4 i S k hm ?_
    rw [g3 i (hv.disj_sd i (List.mem_map_of_mem (f := Prod.fst) hm)), hk]
  · intro i j M c T k hm a1 a2 a3
    rw [k3 i (fun h => hv.disj_sd i h (List.mem_map_of_mem (f := Prod.fst) hm))]
    exact g4 i j M c T k hm a1 (OMap.find?_of_mem (sorted_of_keys (hv.dep_sorted i j M hm)) a2) a3

theorem widenBlocks_ok (m : OMap Nat (Nat × Nat × Nat)) (bs : List (Nat × Nat))
    (hnd : (m.map Prod.fst).Nodup) (h : ∀ i ∈ m.map Prod.fst, i < bs.length) :
    ∃ bs', widenBlocks m bs = .ok bs' ∧ bs'.length = bs.length ∧
      (∀ i, i ∉ m.map Prod.fst → bs'[i]? = bs[i]?) ∧
      ∀ i lo hi st b, (i, lo, hi, st) ∈ m → bs[i]? = some b →
        bs'[i]? = some (b.1, min (u32 (b.1 + st)) hi) := by
  induction m generalizing bs with
  | nil => exact ⟨bs, rfl, rfl, by simp, by simp⟩
  | cons e m ih =>
    obtain ⟨i, lo, hi, st⟩ := e
    rw [List.map_cons, List.nodup_cons] at hnd
    have hil : i < bs.length := h i (by simp)
    obtain ⟨bs', g1, g2, g3, g4⟩ := ih (bs.set i (bs[i].1, if u32 (bs[i].1 + st) > hi then hi else
      u32 (bs[i].1 + st))) hnd.2 (by
        intro i' hi'
        rw [List.length_set]
        exact h i' (by simp only [List.map_cons, List.mem_cons]; exact .inr hi'))
    refine ⟨bs', ?_, by rw [g2, List.length_set], ?_, ?_⟩
    · simp only [widenBlocks, rd_of_lt hil, Res.bind_ok, g1]
    · intro i' hi'
      simp only [List.map_cons, List.mem_cons, not_or] at hi'
      rw [g3 i' hi'.2, List.getElem?_set_ne (Ne.symm hi'.1)]
    · intro i' lo' hi' st' b hm hb
      rcases List.mem_cons.1 hm with hm | hm
      · cases hm
        rw [g3 i hnd.1, List.getElem?_set_self hil]
        rw [List.getElem?_eq_getElem hil] at hb
        cases hb
        congr 2
        split <;> omega
      · refine g4 i' lo' hi' st' b hm ?_
        rw [List.getElem?_set_ne, hb]
        rintro rfl
        exact hnd.1 (List.mem_map.2 ⟨_, hm, rfl⟩)

/-- All values of a tuple of a package are below 2^31. -/
theorem Val.lt (hv : d.Valid package) {t v : List Nat} (ht : Raw d steps t) (hvv : Val d t v)
    {i x : Nat} (hx : v[i]? = some x) : x < 2147483648 := by
  have hil : i < d.length := by
    rw [← hvv.length_eq]; exact (List.getElem?_eq_some_iff.1 hx).1
  rcases (hv.cover i).1 hil with h | h | h
  · obtain ⟨⟨i, lo, hi⟩, he, rfl⟩ := List.mem_map.1 h
    rw [hvv.block i lo hi he] at hx
    obtain ⟨k, a1, a2⟩ := ht.block i lo hi he
    rw [a1] at hx
    cases hx
    have := (hv.block_ok i lo hi he).2
    omega
  · obtain ⟨⟨i, S⟩, he, rfl⟩ := List.mem_map.1 h
    obtain ⟨k, a1, a2⟩ := ht.set i S he
    rw [hvv.set i S k he a1] at hx
    exact (hv.set_ok i S he).2.2.2 x (List.mem_of_getElem? hx)
  · obtain ⟨⟨i, j, M⟩, he, rfl⟩ := List.mem_map.1 h
    obtain ⟨c, T, k, a1, a2, a3, a4⟩ := ht.dep i j M he
    rw [hvv.dep i j M c T k he a1 a2 a3] at hx
    exact (hv.dep_ok i j M c T he a2).2.2.2 x (List.mem_of_getElem? hx)

theorem Built.blocks_keys (hb : Built d package it steps) (i : Nat) :
    i ∈ it.blocks.map Prod.fst ↔ i ∈ d.blocks.map Prod.fst := by
  constructor
  · intro h
    obtain ⟨⟨i, lo, hi, st⟩, he, rfl⟩ := List.mem_map.1 h
    exact List.mem_map_of_mem (f := Prod.fst) (hb.of_blocks _ _ _ _ he).1
  · intro h
    obtain ⟨⟨i, lo, hi⟩, he, rfl⟩ := List.mem_map.1 h
    exact List.mem_map_of_mem (f := Prod.fst) (hb.blocks_of _ _ _ he).1

/-- The ranges `as_block` returns. -/
structure BoxOf (d : Descr) (steps : Nat → Nat) (v : List Nat) (box : List (Nat × Nat)) : Prop where
  length_eq : box.length = d.length
  block : ∀ i lo hi x, (i, lo, hi) ∈ d.blocks → v[i]? = some x →
    box[i]? = some (x, min (x + steps i) hi)
  other : ∀ i x, i ∉ d.blocks.map Prod.fst → v[i]? = some x → box[i]? = some (x, x + 1)

theorem asBlock_ok (hv : d.Valid package) (hb : Built d package it steps) {t : List Nat}
    (ht : Raw d steps t) : ∃ v box, asPosition { it with position := t } = .ok v ∧
      asBlock { it with position := t } = .ok box ∧ Val d t v ∧ BoxOf d steps v box := by
  obtain ⟨v, h1, h2⟩ := asPosition_ok hv hb ht
  have hnb : (it.blocks.map Prod.fst).Nodup :=
    (keys_of_sorted hb.blocks_sorted).imp (fun h => Nat.ne_of_lt h)
  obtain ⟨box, g1, g2, g3, g4⟩ := widenBlocks_ok it.blocks (v.map fun c => (c, u32 (c + 1))) hnb (by
    intro i hi
    rw [List.length_map, h2.length_eq]
    exact (hv.cover i).2 (.inl ((hb.blocks_keys i).1 hi)))
  refine ⟨v, box, h1, ?_, h2, ?_, ?_, ?_⟩
  · simp only [asBlock, h1, Res.bind_ok, g1]
  · rw [g2, List.length_map, h2.length_eq]
  · intro i lo hi x hm hx
    have hlt := h2.lt hv ht hx
    obtain ⟨b1, b2, b3⟩ := hb.blocks_of i lo hi hm
    have := (hv.block_ok i lo hi hm).2
    rw [g4 i lo hi (steps i) (x, u32 (x + 1)) b1 (by rw [List.getElem?_map, hx]; rfl)]
    simp only
    rw [u32_of_lt (by omega)]
  · intro i x hi hx
    have hlt := h2.lt hv ht hx
    rw [g3 i (fun h => hi ((hb.blocks_keys i).1 h)), List.getElem?_map, hx]
    simp only [Option.map_some]
    rw [u32_of_lt (by omega)]

theorem inBox_iff_pack (hv : d.Valid package) {t v : List Nat}
    {box : List (Nat × Nat)} (ht : Raw d steps t) (hvv : Val d t v) (hbox : BoxOf d steps v box)
    {u : List Nat} : InBox box u ↔ Pack d steps t u := by
  have hone : ∀ i x, i ∉ d.blocks.map Prod.fst → v[i]? = some x → InBox box u → u[i]? = some x := by
    intro i x hi hx hin
    obtain ⟨y, hy, h1, h2⟩ := hin.2 i _ (hbox.other i x hi hx)
    simp only at h1 h2
    rw [hy]
    congr 1
    omega
  constructor
  · intro hin
    refine ⟨by rw [hin.1, hbox.length_eq], ?_, ?_, ?_⟩
    · intro i lo hi hm
      obtain ⟨k, a1, a2⟩ := ht.block i lo hi hm
      have hx : v[i]? = some (lo + k * steps i) := by rw [hvv.block i lo hi hm, a1]
      obtain ⟨y, hy, h1, h2⟩ := hin.2 i _ (hbox.block i lo hi _ hm hx)
      simp only at h1 h2
      exact ⟨_, y, a1, hy, h1, by omega, by omega⟩
    · intro i S k hm hk
      obtain ⟨k', a1, a2⟩ := ht.set i S hm
      rw [a1] at hk
      cases hk
      have hx : v[i]? = some S[k] := by
        rw [hvv.set i S k hm a1, List.getElem?_eq_getElem a2]
      rw [List.getElem?_eq_getElem a2]
      exact hone i _ (fun h => hv.disj_bs i h (List.mem_map_of_mem (f := Prod.fst) hm)) hx hin
    · intro i j M c T k hm hc hT hk
      obtain ⟨c', T', k', a1, a2, a3, a4⟩ := ht.dep i j M hm
      rw [a1] at hc; cases hc
      rw [a3] at hk; cases hk
      have : T' = T := OMap.key_unique (sorted_of_keys (hv.dep_sorted i j M hm)) a2 hT
      subst this
      have hx : v[i]? = some T'[k] := by
        rw [hvv.dep i j M c T' k hm a1 a2 a3, List.getElem?_eq_getElem a4]
      rw [List.getElem?_eq_getElem a4]
      exact hone i _ (fun h => hv.disj_bd i h (List.mem_map_of_mem (f := Prod.fst) hm)) hx hin
  · intro hp
    refine ⟨by rw [hp.length_eq, hbox.length_eq], ?_⟩
    intro i b hib
    have hil : i < d.length := by
      rw [← hbox.length_eq]; exact (List.getElem?_eq_some_iff.1 hib).1
    rcases (hv.cover i).1 hil with h | h | h
    · obtain ⟨⟨i, lo, hi⟩, hm, rfl⟩ := List.mem_map.1 h
      obtain ⟨x, y, a1, a2, a3, a4, a5⟩ := hp.block i lo hi hm
      have hx : v[i]? = some x := by rw [hvv.block i lo hi hm, a1]
      rw [hbox.block i lo hi x hm hx] at hib
      cases hib
      exact ⟨y, a2, a3, by simp only; omega⟩
    · obtain ⟨⟨i, S⟩, hm, rfl⟩ := List.mem_map.1 h
      obtain ⟨k, a1, a2⟩ := ht.set i S hm
      have hx : v[i]? = some S[k] := by
        rw [hvv.set i S k hm a1, List.getElem?_eq_getElem a2]
      rw [hbox.other i _ (fun h => hv.disj_bs i h (List.mem_map_of_mem (f := Prod.fst) hm)) hx] at hib
      cases hib
      refine ⟨S[k], ?_, Nat.le_refl _, Nat.lt_succ_self _⟩
      rw [hp.set i S k hm a1, List.getElem?_eq_getElem a2]
    · obtain ⟨⟨i, j, M⟩, hm, rfl⟩ := List.mem_map.1 h
      obtain ⟨c, T, k, a1, a2, a3, a4⟩ := ht.dep i j M hm
      have hx : v[i]? = some T[k] := by
        rw [hvv.dep i j M c T k hm a1 a2 a3, List.getElem?_eq_getElem a4]
      rw [hbox.other i _ (fun h => hv.disj_bd i h (List.mem_map_of_mem (f := Prod.fst) hm)) hx] at hib
      cases hib
      refine ⟨T[k], ?_, Nat.le_refl _, Nat.lt_succ_self _⟩
      rw [hp.dep i j M c T k hm a1 a2 a3, List.getElem?_eq_getElem a4]

/-- Two raw positions whose packages share a tuple are equal. -/
theorem Pack.unique (hv : d.Valid package) (hb : Built d package it steps) {t t' u : List Nat}
    (ht : Raw d steps t) (ht' : Raw d steps t') (hp : Pack d steps t u) (hp' : Pack d steps t' u) :
    t = t' := by
  have hset : ∀ i S, (i, S) ∈ d.sets → t[i]? = t'[i]? := by
    intro i S hm
    obtain ⟨k, a1, a2⟩ := ht.set i S hm
    obtain ⟨k', b1, b2⟩ := ht'.set i S hm
    have e1 := hp.set i S k hm a1
    have e2 := hp'.set i S k' hm b1
    rw [e1] at e2
    rw [a1, b1, (List.nodup_iff_injective_get.1 (hv.set_ok i S hm).2.1
      (a₁ := ⟨k, a2⟩) (a₂ := ⟨k', b2⟩) (by
        rw [List.getElem?_eq_getElem a2, List.getElem?_eq_getElem b2] at e2
        simpa using e2) |> fun h => by simpa using h : k = k')]
  have hblock : ∀ i lo hi, (i, lo, hi) ∈ d.blocks → t[i]? = t'[i]? := by
    intro i lo hi hm
    obtain ⟨h1, h2, h3⟩ := hb.blocks_of i lo hi hm
    obtain ⟨k, a1, a2⟩ := ht.block i lo hi hm
    obtain ⟨k', b1, b2⟩ := ht'.block i lo hi hm
    obtain ⟨x, y, c1, c2, c3, c4, c5⟩ := hp.block i lo hi hm
    obtain ⟨x', y', d1, d2, d3, d4, d5⟩ := hp'.block i lo hi hm
    rw [a1] at c1; cases c1
    rw [b1] at d1; cases d1
    rw [c2] at d2; cases d2
    have e1 : k * steps i < (k' + 1) * steps i := by rw [Nat.succ_mul]; omega
    have e2 : k' * steps i < (k + 1) * steps i := by rw [Nat.succ_mul]; omega
    have e1 := Nat.lt_of_mul_lt_mul_right e1
    have e2 := Nat.lt_of_mul_lt_mul_right e2
    have : k = k' := by omega
    rw [a1, b1, this]
  have hdep : ∀ i j M, (i, j, M) ∈ d.deps → t[i]? = t'[i]? := by
    intro i j M hm
    obtain ⟨c, T, k, a1, a2, a3, a4⟩ := ht.dep i j M hm
    obtain ⟨c', T', k', b1, b2, b3, b4⟩ := ht'.dep i j M hm
    have hj : t[j]? = t'[j]? := by
      rcases hv.dep_coupled i j M hm with ⟨S, hS, _⟩ | ⟨lo, hi, hS, _⟩
      · exact hset j S hS
      · exact hblock j lo hi hS
    rw [a1, b1] at hj
    cases hj
    have : T = T' := OMap.key_unique (sorted_of_keys (hv.dep_sorted i j M hm)) a2 b2
    subst this
    have e1 := hp.dep i j M c T k hm a1 a2 a3
    have e2 := hp'.dep i j M c T k' hm b1 b2 b3
    rw [e1] at e2
    rw [a3, b3, (List.nodup_iff_injective_get.1 (hv.dep_ok i j M c T hm a2).2.1
      (a₁ := ⟨k, a4⟩) (a₂ := ⟨k', b4⟩) (by
        rw [List.getElem?_eq_getElem a4, List.getElem?_eq_getElem b4] at e2
        simpa using e2) |> fun h => by simpa using h : k = k')]
  apply List.ext_getElem?
  intro i
  by_cases hil : i < d.length
  · rcases (hv.cover i).1 hil with h | h | h
    · obtain ⟨⟨i, lo, hi⟩, hm, rfl⟩ := List.mem_map.1 h
      exact hblock i lo hi hm
    · obtain ⟨⟨i, S⟩, hm, rfl⟩ := List.mem_map.1 h
      exact hset i S hm
    · obtain ⟨⟨i, j, M⟩, hm, rfl⟩ := List.mem_map.1 h
      exact hdep i j M hm
  · rw [List.getElem?_eq_none (by rw [ht.length_eq]; omega),
      List.getElem?_eq_none (by rw [ht'.length_eq]; omega)]

theorem le_prod_of_mem {l : List Nat} (h : ∀ x ∈ l, 1 ≤ x) : 1 ≤ l.prod ∧ ∀ a ∈ l, a ≤ l.prod := by
  induction l with
  | nil => simp
  | cons b l ih =>
    have hb := h b (by simp)
    obtain ⟨h1, h2⟩ := ih (fun x hx => h x (by simp [hx]))
    rw [List.prod_cons]
    have hge : 1 ≤ b * l.prod := Nat.mul_pos hb h1
    refine ⟨hge, ?_⟩
    intro a ha
    rcases List.mem_cons.1 ha with rfl | ha
    · exact Nat.le_mul_of_pos_right _ h1
    · exact Nat.le_trans (h2 a ha) (Nat.le_mul_of_pos_left _ hb)

/-- Package size one forces step one. -/
theorem Built.steps_one (hb : Built d package it steps) (hp1 : package = 1) {j lo hi : Nat}
    (hS : (j, lo, hi) ∈ d.blocks) : steps j = 1 := by
  have hprod := hb.steps_prod
  rw [hp1] at hprod
  have hmem : steps j ∈ d.blocks.map fun e => steps e.1 :=
    List.mem_map.2 ⟨(j, lo, hi), hS, rfl⟩
  have hpos : ∀ x ∈ d.blocks.map (fun e => steps e.1), 1 ≤ x := by
    intro x hx
    obtain ⟨⟨i', lo', hi'⟩, hm', rfl⟩ := List.mem_map.1 hx
    exact (hb.blocks_of i' lo' hi' hm').2.1
  have := (le_prod_of_mem hpos).2 _ hmem
  have := (hb.blocks_of j lo hi hS).2.1
  omega

/-- The raw coordinate of a tuple, for ranges and sets. -/
def rawCoord0 (d : Descr) (steps : Nat → Nat) (u : List Nat) (i : Nat) : Nat :=
  match OMap.find? d.blocks i with
  | some (lo, _) => lo + (u.getD i 0 - lo) / steps i * steps i
  | none =>
    match OMap.find? d.sets i with
    | some S => S.idxOf (u.getD i 0)
    | none => 0

/-- The raw coordinate of a tuple. -/
def rawCoord (d : Descr) (steps : Nat → Nat) (u : List Nat) (i : Nat) : Nat :=
  match OMap.find? d.deps i with
  | some (j, M) => ((OMap.find? M (rawCoord0 d steps u j)).getD []).idxOf (u.getD i 0)
  | none => rawCoord0 d steps u i

/-- The described tuples are the tuples of the packages. -/
theorem contains_iff (hv : d.Valid package) (hb : Built d package it steps) {u : List Nat} :
    d.Contains u ↔ ∃ t, Raw d steps t ∧ Pack d steps t u := by
  have sb := sorted_of_keys hv.blocks_sorted
  have ss := sorted_of_keys hv.sets_sorted
  have sd := sorted_of_keys hv.deps_sorted
  constructor
  · intro hc
    set t := (List.range d.length).map (rawCoord d steps u) with ht
    have htl : t.length = d.length := by simp [ht]
    have hti : ∀ i, i < d.length → t[i]? = some (rawCoord d steps u i) := by
      intro i hi
      simp [ht, hi]
    have noDep : ∀ i, i ∉ d.deps.map Prod.fst → rawCoord d steps u i = rawCoord0 d steps u i := by
      intro i hi
      have : OMap.find? d.deps i = none := by
        rw [OMap.find?_eq_none sd]
        intro v hv'
        exact hi (List.mem_map_of_mem (f := Prod.fst) hv')
      unfold rawCoord
      rw [this]
    have noBlock : ∀ i, i ∉ d.blocks.map Prod.fst → OMap.find? d.blocks i = none := by
      intro i hi
      rw [OMap.find?_eq_none sb]
      intro v hv'
      exact hi (List.mem_map_of_mem (f := Prod.fst) hv')
    have hblock : ∀ i lo hi, (i, lo, hi) ∈ d.blocks →
        t[i]? = some (lo + (u.getD i 0 - lo) / steps i * steps i) := by
      intro i lo hi hm
      have hi' := List.mem_map_of_mem (f := Prod.fst) hm
      rw [hti i ((hv.cover i).2 (.inl hi')), noDep i (hv.disj_bd i hi')]
      unfold rawCoord0
      rw [OMap.find?_of_mem sb hm]
    have hset0 : ∀ i S, (i, S) ∈ d.sets → rawCoord0 d steps u i = S.idxOf (u.getD i 0) := by
      intro i S hm
      have hi' := List.mem_map_of_mem (f := Prod.fst) hm
      unfold rawCoord0
      rw [noBlock i (fun h => hv.disj_bs i h hi'), OMap.find?_of_mem ss hm]
    have hset : ∀ i S, (i, S) ∈ d.sets → t[i]? = some (S.idxOf (u.getD i 0)) := by
      intro i S hm
      have hi' := List.mem_map_of_mem (f := Prod.fst) hm
      rw [hti i ((hv.cover i).2 (.inr (.inl hi'))), noDep i (hv.disj_sd i hi'), hset0 i S hm]
    have hcoup : ∀ i j M, (i, j, M) ∈ d.deps → ∃ T, t[j]? = some (rawCoord0 d steps u j) ∧
        (rawCoord0 d steps u j, T) ∈ M ∧ u.getD i 0 ∈ T ∧ i < u.length := by
      intro i j M hm
      have sM := sorted_of_keys (hv.dep_sorted i j M hm)
      rcases hv.dep_coupled i j M hm with ⟨S, hS, _⟩ | ⟨lo, hi, hS, hp1, _⟩
      · obtain ⟨k, y, x, a1, a2, a3, T, a4, a5⟩ := hc.dep_set i j M S hm hS
        obtain ⟨hk, rfl⟩ := List.getElem?_eq_some_iff.1 a1
        have e1 : u.getD j 0 = S[k] := by simp [List.getD_eq_getElem?_getD, a2]
        have e2 : u.getD i 0 = x := by simp [List.getD_eq_getElem?_getD, a3]
        have e3 : S.idxOf S[k] = k := (hv.set_ok j S hS).2.1.idxOf_getElem k hk
        refine ⟨T, ?_, ?_, by rw [e2]; exact a5, (List.getElem?_eq_some_iff.1 a3).1⟩
        · rw [hset j S hS, hset0 j S hS]
        · rw [hset0 j S hS, e1, e3]
          exact a4
      · obtain ⟨y, x, a2, a3, T, a4, a5⟩ := hc.dep_block i j M lo hi hm hS
        obtain ⟨h1, h2, h3⟩ := hb.blocks_of j lo hi hS
        have e1 : u.getD j 0 = y := by simp [List.getD_eq_getElem?_getD, a2]
        have e2 : u.getD i 0 = x := by simp [List.getD_eq_getElem?_getD, a3]
        obtain ⟨y', a2', a6, a7⟩ := hc.block j lo hi hS
        rw [a2] at a2'; cases a2'
        -- package size one forces step one
        have hst : steps j = 1 := hb.steps_one hp1 hS
        have e3 : rawCoord0 d steps u j = y := by
          unfold rawCoord0
          rw [OMap.find?_of_mem sb hS]
          simp only [e1, hst]
          omega
        refine ⟨T, ?_, by rw [e3]; exact a4, by rw [e2]; exact a5, (List.getElem?_eq_some_iff.1 a3).1⟩
        have hj := List.mem_map_of_mem (f := Prod.fst) hS
        rw [hti j ((hv.cover j).2 (.inl hj)), noDep j (hv.disj_bd j hj)]
    have hdep : ∀ i j M T, (i, j, M) ∈ d.deps → (rawCoord0 d steps u j, T) ∈ M →
        t[i]? = some (T.idxOf (u.getD i 0)) := by
      intro i j M T hm hT
      have hi' := List.mem_map_of_mem (f := Prod.fst) hm
      rw [hti i ((hv.cover i).2 (.inr (.inr hi')))]
      unfold rawCoord
      rw [OMap.find?_of_mem sd hm]
      simp only [OMap.find?_of_mem (sorted_of_keys (hv.dep_sorted i j M hm)) hT, Option.getD_some]
    refine ⟨t, ⟨htl, ?_, ?_, ?_⟩, ⟨hc.length_eq, ?_, ?_, ?_⟩⟩
    · intro i lo hi hm
      obtain ⟨x, a1, a2, a3⟩ := hc.block i lo hi hm
      have e1 : u.getD i 0 = x := by simp [List.getD_eq_getElem?_getD, a1]
      refine ⟨_, hblock i lo hi hm, ?_⟩
      have := Nat.div_mul_le_self (u.getD i 0 - lo) (steps i)
      omega
    · intro i S hm
      obtain ⟨x, a1, a2⟩ := hc.set i S hm
      have e1 : u.getD i 0 = x := by simp [List.getD_eq_getElem?_getD, a1]
      exact ⟨_, hset i S hm, by rw [e1]; exact List.idxOf_lt_length_iff.2 a2⟩
    · intro i j M hm
      obtain ⟨T, a1, a2, a3, a4⟩ := hcoup i j M hm
      exact ⟨_, T, _, a1, a2, hdep i j M T hm a2, List.idxOf_lt_length_iff.2 a3⟩
    · intro i lo hi hm
      obtain ⟨x, a1, a2, a3⟩ := hc.block i lo hi hm
      have e1 : u.getD i 0 = x := by simp [List.getD_eq_getElem?_getD, a1]
      obtain ⟨h1, h2, h3⟩ := hb.blocks_of i lo hi hm
      refine ⟨_, x, hblock i lo hi hm, a1, ?_, ?_, a3⟩
      · rw [e1]
        have := Nat.div_mul_le_self (x - lo) (steps i)
        omega
      · rw [e1]
        have := Nat.lt_div_mul_add (a := x - lo) (b := steps i) (by omega)
        omega
    · intro i S k hm hk
      obtain ⟨x, a1, a2⟩ := hc.set i S hm
      have e1 : u.getD i 0 = x := by simp [List.getD_eq_getElem?_getD, a1]
      rw [hset i S hm] at hk
      cases hk
      rw [a1, e1, List.getElem?_idxOf a2]
    · intro i j M c T k hm hcj hT hk
      obtain ⟨T', a1, a2, a3, a4⟩ := hcoup i j M hm
      rw [a1] at hcj
      cases hcj
      have : T' = T := OMap.key_unique (sorted_of_keys (hv.dep_sorted i j M hm)) a2 hT
      subst this
      rw [hdep i j M T' hm a2] at hk
      cases hk
      rw [List.getElem?_idxOf a3, List.getElem?_eq_getElem a4]
      simp [a4]
  · rintro ⟨t, ht, hp⟩
    refine ⟨hp.length_eq, ?_, ?_, ?_, ?_⟩
    · intro i lo hi hm
      obtain ⟨x, y, a1, a2, a3, a4, a5⟩ := hp.block i lo hi hm
      obtain ⟨k, b1, b2⟩ := ht.block i lo hi hm
      rw [b1] at a1; cases a1
      exact ⟨y, a2, by omega, a5⟩
    · intro i S hm
      obtain ⟨k, b1, b2⟩ := ht.set i S hm
      refine ⟨S[k], ?_, List.getElem_mem b2⟩
      rw [hp.set i S k hm b1, List.getElem?_eq_getElem b2]
    · intro i j M S hm hS
      obtain ⟨c, T, k, a1, a2, a3, a4⟩ := ht.dep i j M hm
      obtain ⟨k', b1, b2⟩ := ht.set j S hS
      rw [b1] at a1; cases a1
      refine ⟨c, S[c], T[k], List.getElem?_eq_getElem b2, ?_, ?_, T, a2, List.getElem_mem a4⟩
      · rw [hp.set j S c hS b1, List.getElem?_eq_getElem b2]
      · rw [hp.dep i j M c T k hm b1 a2 a3, List.getElem?_eq_getElem a4]
    · intro i j M lo hi hm hS
      obtain ⟨c, T, k, a1, a2, a3, a4⟩ := ht.dep i j M hm
      obtain ⟨x, y, c1, c2, c3, c4, c5⟩ := hp.block j lo hi hS
      rw [c1] at a1; cases a1
      have hp1 : package = 1 := by
        rcases hv.dep_coupled i j M hm with ⟨S, hS', _⟩ | ⟨_, _, _, hp1, _⟩
        · exact absurd (List.mem_map_of_mem (f := Prod.fst) hS')
            (hv.disj_bs j (List.mem_map_of_mem (f := Prod.fst) hS))
        · exact hp1
      have hst : steps j = 1 := hb.steps_one hp1 hS
      have : y = c := by omega
      subst this
      refine ⟨y, T[k], c2, ?_, T, a2, List.getElem_mem a4⟩
      rw [hp.dep i j M y T k hm c1 a2 a3, List.getElem?_eq_getElem a4]

end

end BlockIterator
end Hycu
