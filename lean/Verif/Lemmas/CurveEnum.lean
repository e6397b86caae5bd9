import Verif.Lemmas.CurveArgs
import Verif.Props.Block

/-!
The positions visited by `CurveIterator`.
-/

namespace Hycu
namespace CurveIterator

theorem visits_mono {α : Type} {visit : CurveIterator → Res α} : ∀ {n m : Nat} {it : CurveIterator} {l : List α},
    n ≤ m → visits visit n it = .ok l → visits visit m it = .ok l
  | 0, _, _, _, _, h => by cases h
  | n + 1, 0, _, _, h, _ => by omega
  | n + 1, m + 1, it, l, hnm, h => by
    unfold visits at h ⊢
    by_cases he : it.isEnd
    · rw [if_pos he] at h ⊢; exact h
    · rw [if_neg he] at h ⊢
      cases hv : visit it with
      | ok a =>
        rw [hv] at h
        simp only [Res.bind_ok] at h ⊢
        cases hs : it.step with
        | ok it' =>
          rw [hs] at h
          simp only [Res.bind_ok] at h ⊢
          cases hr : visits visit n it' with
          | ok l' =>
            rw [hr] at h
            rw [visits_mono (by omega) hr]
            exact h
          | _ => rw [hr] at h; cases h
        | _ => rw [hs] at h; cases h
      | _ => rw [hv] at h; cases h

/-- Going through one enumerator. -/
theorem visits_one {p : Nat} (pre post : List BlockIterator) {rest : List (List (Nat × Nat))} {N : Nat}
    (hrest : ∀ e, visits asBlock N { prime := p, enumerators := pre ++ e :: post, ix := pre.length + 1 } = .ok rest) :
    ∀ (n : Nat) (e : BlockIterator) (bs : List (List (Nat × Nat))), e.isEnd = false →
      BlockIterator.visits BlockIterator.asBlock n e = .ok bs →
      visits asBlock (n + N) { prime := p, enumerators := pre ++ e :: post, ix := pre.length } = .ok (bs ++ rest)
  | 0, _, _, _, h => by cases h
  | n + 1, e, bs, he, h => by
    unfold BlockIterator.visits at h
    rw [he, if_neg (by simp)] at h
    have hend : isEnd { prime := p, enumerators := pre ++ e :: post, ix := pre.length } = false := by
      simp [isEnd]
    have hrd : ∀ e, rd (pre ++ e :: post) pre.length = .ok e := by
      intro e; rw [rd_eq_ok]; simp
    rw [show n + 1 + N = (n + N) + 1 by omega]
    unfold visits
    rw [hend, if_neg (by simp)]
    simp only [asBlock, step, hend, Bool.false_eq_true, if_false, hrd, Res.bind_ok]
    cases hv : e.asBlock with
    | ok a =>
      rw [hv] at h
      simp only [Res.bind_ok] at h ⊢
      cases hs : e.step with
      | ok e' =>
        rw [hs] at h
        simp only [Res.bind_ok] at h ⊢
        have hset : (pre ++ e :: post).set pre.length e' = pre ++ e' :: post := by simp
        rw [hset]
        cases hr : BlockIterator.visits BlockIterator.asBlock n e' with
        | ok l' =>
          rw [hr] at h
          obtain rfl : a :: l' = bs := Res.ok.inj h
          by_cases he' : e'.isEnd
          · rw [if_pos he']
            have : l' = [] := by
              cases n with
              | zero => cases hr
              | succ n =>
                unfold BlockIterator.visits at hr
                rw [if_pos he'] at hr
                exact (Res.ok.inj hr).symm
            subst this
            have := visits_mono (m := n + N) (by omega) (hrest e')
            simp only [Res.pure_eq, Res.bind_ok]
            rw [this]
            rfl
          · rw [if_neg he']
            have := visits_one pre post hrest n e' l' (by simpa using he') hr
            simp only [Res.pure_eq, Res.bind_ok]
            rw [this]
            rfl
        | _ => rw [hr] at h; cases h
      | _ => rw [hs] at h; cases h
    | _ => rw [hv] at h; cases h

/-- Going through all enumerators. -/
theorem visits_all {p : Nat} : ∀ (es pre : List BlockIterator) (bss : List (List (List (Nat × Nat)))),
    List.Forall₂ (fun e bs => e.isEnd = false ∧
      Terminates (fun n => BlockIterator.visits BlockIterator.asBlock n e) bs) es bss →
    ∃ N, ∀ pre' : List BlockIterator, pre'.length = pre.length →
      visits asBlock N { prime := p, enumerators := pre' ++ es, ix := pre.length } = .ok bss.flatten
  | [], pre, bss, h => by
    cases h
    refine ⟨1, fun pre' hp => ?_⟩
    unfold visits
    rw [if_pos (by simp [isEnd, hp])]
    rfl
  | e :: es, pre, bss, h => by
    cases h with
    | cons h1 h2 =>
      rename_i bs bss
      obtain ⟨he, N1, h1⟩ := h1
      obtain ⟨N, ih⟩ := visits_all es (pre ++ [e]) bss h2
      refine ⟨N1 + N, fun pre' hp => ?_⟩
      rw [← hp, List.flatten_cons]
      refine visits_one pre' es (fun e' => ?_) N1 e bs he (h1 N1 (Nat.le_refl _))
      have := ih (pre' ++ [e']) (by simp [hp])
      simp only [List.length_append, List.length_singleton, List.append_assoc, List.singleton_append] at this
      rw [hp]
      exact this

theorem inBox_bounds {b : List (Nat × Nat)} (hv : ∃ v, InBox b v)
    (h : ∀ v, InBox b v → ∀ x ∈ v, x < 2147483648) :
    ∀ c ∈ b, c.1 < c.2 ∧ c.2 ≤ 2147483648 := by
  obtain ⟨v, hv⟩ := hv
  have hlt : ∀ c ∈ b, c.1 < c.2 := by
    intro c hc
    obtain ⟨i, hi⟩ := List.mem_iff_getElem?.1 hc
    obtain ⟨x, _, h1, h2⟩ := hv.2 i c hi
    omega
  have htop : InBox b (b.map fun c => c.2 - 1) := by
    refine ⟨by simp, ?_⟩
    intro i c hc
    refine ⟨c.2 - 1, by simp [hc], ?_⟩
    have := hlt c (List.mem_iff_getElem?.2 ⟨i, hc⟩)
    omega
  intro c hc
  have h1 := hlt c hc
  have h2 := h _ htop (c.2 - 1) (List.mem_map.2 ⟨c, hc, rfl⟩)
  exact ⟨h1, by omega⟩

/-- All positions of all boxes. -/
theorem positions_all : ∀ (boxes : List (List (Nat × Nat))),
    (∀ b ∈ boxes, b ≠ [] ∧ ∀ c ∈ b, c.1 < c.2 ∧ c.2 ≤ 2147483648) →
    ∃ Ls, Terminates (fun n => boxes.mapM (packagePositions n)) Ls ∧
      List.Forall₂ (fun b L => L.Nodup ∧ ∀ v, v ∈ L ↔ InBox b v) boxes Ls
  | [], _ => ⟨[], ⟨0, fun _ _ => rfl⟩, .nil⟩
  | b :: boxes, h => by
    obtain ⟨Ls, ⟨N, hN⟩, hF⟩ := positions_all boxes (fun c hc => h c (List.mem_cons_of_mem _ hc))
    obtain ⟨h1, h2⟩ := h b List.mem_cons_self
    obtain ⟨it, L, e1, ⟨M, hM⟩, e3, e4⟩ := C01_box_exact b h1 h2
    refine ⟨L :: Ls, ⟨max N M, fun n hn => ?_⟩, .cons ⟨e3, e4⟩ hF⟩
    have a1 := hN n (by omega)
    have a2 := hM n (by omega)
    simp only at a1 a2 ⊢
    rw [List.mapM_cons, a1]
    simp only [packagePositions, e1, Res.bind_ok, a2]
    rfl

theorem forall₂_nodup_flatten : ∀ {boxes : List (List (Nat × Nat))} {Ls : List (List (List Nat))},
    List.Forall₂ (fun b L => L.Nodup ∧ ∀ v, v ∈ L ↔ InBox b v) boxes Ls →
    boxes.Pairwise (fun a b => ∀ v, ¬ (InBox a v ∧ InBox b v)) →
    Ls.flatten.Nodup ∧ ∀ v, v ∈ Ls.flatten ↔ ∃ b ∈ boxes, InBox b v
  | [], _, h, _ => by cases h; simp
  | b :: boxes, _, h, hp => by
    cases h with
    | cons h1 h2 =>
      rename_i L Ls
      obtain ⟨hp1, hp2⟩ := List.pairwise_cons.1 hp
      obtain ⟨i1, i2⟩ := forall₂_nodup_flatten h2 hp2
      refine ⟨?_, ?_⟩
      · rw [List.flatten_cons, List.nodup_append]
        refine ⟨h1.1, i1, ?_⟩
        intro v hv w hw hvw
        subst hvw
        obtain ⟨c, hc, hcv⟩ := (i2 v).1 hw
        exact hp1 c hc v ⟨(h1.2 v).1 hv, hcv⟩
      · intro v
        simp [List.flatten_cons, i2, h1.2]

/-- What iterating the packages of the enumerators of a list of arguments visits. -/
structure Enumerated (args : List EnumeratorArgs) (es : List BlockIterator)
    (boxes : List (List (Nat × Nat))) : Prop where
  visits : ∀ p, Terminates (fun n => visits asBlock n { prime := p, enumerators := es, ix := 0 }) boxes
  disjoint : boxes.Pairwise (fun a b => ∀ v, ¬ (InBox a v ∧ InBox b v))
  nonempty : ∀ b ∈ boxes, ∃ v, InBox b v
  mem : ∀ v, (∃ b ∈ boxes, InBox b v) ↔ ∃ a ∈ args, a.toDescr.Contains v

theorem enumerated_of {package : Nat} (args : List EnumeratorArgs)
    (hv : ∀ a ∈ args, a.toDescr.Valid package)
    (hd : args.Pairwise fun a b => ∀ v, ¬ (a.toDescr.Contains v ∧ b.toDescr.Contains v)) :
    ∃ es boxes, args.mapM (fun a => BlockIterator.make a.length a.blocks package a.sets a.deps) = .ok es ∧
      Enumerated args es boxes := by
  suffices h : ∃ es bss, args.mapM (fun a => BlockIterator.make a.length a.blocks package a.sets a.deps) = .ok es ∧
      List.Forall₂ (fun e bs => e.isEnd = false ∧
        Terminates (fun n => BlockIterator.visits BlockIterator.asBlock n e) bs) es bss ∧
      bss.flatten.Pairwise (fun a b => ∀ v, ¬ (InBox a v ∧ InBox b v)) ∧
      (∀ b ∈ bss.flatten, ∃ v, InBox b v) ∧
      ∀ v, (∃ b ∈ bss.flatten, InBox b v) ↔ ∃ a ∈ args, a.toDescr.Contains v by
    obtain ⟨es, bss, h1, h2, h3, h4, h5⟩ := h
    refine ⟨es, bss.flatten, h1, ?_, h3, h4, h5⟩
    intro p
    obtain ⟨N, hN⟩ := visits_all (p := p) es [] bss h2
    exact ⟨N, fun n hn => visits_mono hn (hN [] rfl)⟩
  induction args with
  | nil => exact ⟨[], [], rfl, .nil, by simp, by simp, by simp⟩
  | cons a args ih =>
    obtain ⟨hd1, hd2⟩ := List.pairwise_cons.1 hd
    obtain ⟨es, bss, h1, h2, h3, h4, h5⟩ := ih (fun b hb => hv b (List.mem_cons_of_mem _ hb)) hd2
    have hva := hv a List.mem_cons_self
    obtain ⟨it, steps, m1, hb⟩ := BlockIterator.make_ok hva
    obtain ⟨it', boxes, c1, c2, c3, c4, c5⟩ := C03_packages_partition a.toDescr package hva
    rw [m1] at c1
    obtain rfl := Res.ok.inj c1
    refine ⟨it :: es, boxes :: bss, ?_, .cons ⟨hb.not_end, c2⟩ h2, ?_, ?_, ?_⟩
    · rw [List.mapM_cons, h1]
      have : BlockIterator.make a.length a.blocks package a.sets a.deps = .ok it := m1
      rw [this]
      rfl
    · rw [List.flatten_cons, List.pairwise_append]
      refine ⟨c3, h3, ?_⟩
      intro b hb b' hb' v hvv
      obtain ⟨a', ha', hc'⟩ := (h5 v).1 ⟨b', hb', hvv.2⟩
      exact hd1 a' ha' v ⟨(c5 v).2 ⟨b, hb, hvv.1⟩, hc'⟩
    · intro b hb
      rcases List.mem_append.1 hb with h | h
      · exact c4 b h
      · exact h4 b h
    · intro v
      rw [List.flatten_cons]
      constructor
      · rintro ⟨b, hb, hbv⟩
        rcases List.mem_append.1 hb with h | h
        · exact ⟨a, List.mem_cons_self, (c5 v).2 ⟨b, h, hbv⟩⟩
        · obtain ⟨a', h6, h7⟩ := (h5 v).1 ⟨b, h, hbv⟩
          exact ⟨a', List.mem_cons_of_mem _ h6, h7⟩
      · rintro ⟨a', ha', hc⟩
        rcases List.mem_cons.1 ha' with rfl | ha'
        · obtain ⟨b, h6, h7⟩ := (c5 v).1 hc
          exact ⟨b, List.mem_append_left _ h6, h7⟩
        · obtain ⟨b, h6, h7⟩ := (h5 v).2 ⟨a', ha', hc⟩
          exact ⟨b, List.mem_append_right _ h6, h7⟩

/-- The positions of all packages. -/
theorem Enumerated.positions {args : List EnumeratorArgs} {es : List BlockIterator}
    {boxes : List (List (Nat × Nat))} (h : Enumerated args es boxes) (p : Nat)
    (hc : ∀ a ∈ args, ∀ v, a.toDescr.Contains v → v ≠ [] ∧ ∀ x ∈ v, x < 2147483648) :
    ∃ Ls, Terminates (fun n => allPositions n { prime := p, enumerators := es, ix := 0 }) Ls ∧
      List.Forall₂ (fun b L => L.Nodup ∧ ∀ v, v ∈ L ↔ InBox b v) boxes Ls ∧
      Ls.flatten.Nodup ∧ ∀ v, v ∈ Ls.flatten ↔ ∃ a ∈ args, a.toDescr.Contains v := by
  have hb : ∀ b ∈ boxes, b ≠ [] ∧ ∀ c ∈ b, c.1 < c.2 ∧ c.2 ≤ 2147483648 := by
    intro b hb
    obtain ⟨v, hv⟩ := h.nonempty b hb
    have hin : ∀ v, InBox b v → v ≠ [] ∧ ∀ x ∈ v, x < 2147483648 := by
      intro v hv
      obtain ⟨a, ha, hav⟩ := (h.mem v).1 ⟨b, hb, hv⟩
      exact hc a ha v hav
    refine ⟨?_, inBox_bounds ⟨v, hv⟩ (fun v hv => (hin v hv).2)⟩
    rintro rfl
    have := hv.1
    simp at this
    exact (hin v hv).1 this
  obtain ⟨Ls, ⟨N, hN⟩, hF⟩ := positions_all boxes hb
  obtain ⟨M, hM⟩ := h.visits p
  obtain ⟨n1, n2⟩ := forall₂_nodup_flatten hF h.disjoint
  refine ⟨Ls, ⟨max N M, fun n hn => ?_⟩, hF, n1, fun v => by rw [n2, h.mem]⟩
  have a1 := hN n (by omega)
  have a2 := hM n (by omega)
  simp only at a1 a2
  simp only [allPositions, a2, Res.bind_ok, a1]

end CurveIterator
end Hycu
