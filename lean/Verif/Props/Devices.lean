import Verif.Lemmas.Devices

/-!
C69: the devices, threads and programs of OpenCL.
-/

namespace Hycu
namespace OpenCL

variable {D : Type}

/-- C69: the devices are those of the first platform of each vendor, in the order of the platforms. -/
theorem C69_devices (ps : List (Platform D)) : devices ps = (ps.zipIdx.filter fun x =>
    ∀ j, j < x.2 → vendorOf ps j ≠ vendorOf ps x.2).flatMap fun x => x.1.listed := by
  unfold devices
  rw [addDevices_spec, List.nil_append, pickPlatforms_spec ps [] [] [] rfl (by simp), List.flatMap_map]
  rfl

/-- C69: if all platforms tell different vendors, then all their GPUs and accelerators are used, as often as they are
listed. -/
theorem C69_all {ps : List (Platform D)} (hv : ∀ p ∈ ps, p.vendor ≠ none) (hd : (ps.map Platform.vendor).Nodup) :
    devices ps = ps.flatMap Platform.listed := by
  have hat : ∀ i (hi : i < ps.length), some (vendorOf ps i) = ps[i].vendor := by
    intro i hi
    have h1 : ps = ps.take i ++ ps[i] :: ps.drop (i + 1) := by
      rw [List.getElem_cons_drop, List.take_append_drop]
    have h2 := vendorOf_append (ps.take i) ps[i] (ps.drop (i + 1))
    rw [← h1, List.length_take, Nat.min_eq_left hi.le] at h2
    rw [h2]
    cases hp : ps[i].vendor with
    | none => exact absurd hp (hv _ (List.getElem_mem hi))
    | some v => rfl
  rw [C69_devices, List.filter_eq_self.2]
  · rw [← List.flatMap_map (f := Prod.fst) (g := Platform.listed), List.zipIdx_map_fst]
  · rintro ⟨p, i⟩ hx
    obtain ⟨hi, -⟩ := List.mem_zipIdx' hx
    simp only [decide_eq_true_eq]
    intro j hj he
    have h1 := hat j (by omega)
    rw [he, hat i hi] at h1
    have h3 := (List.nodup_iff_injective_getElem.1 hd)
    have h4 := @h3 ⟨i, by simpa using hi⟩ ⟨j, by simp; omega⟩ (by simpa using h1)
    simp at h4
    omega

/-- C69: but not all devices are used.  If a vendor has two platforms, say one for processors and one for GPUs, then the
devices of the second one are not found. -/
theorem C69_missed : ∃ (ps : List (Platform Nat)) (d : Nat), (∀ p ∈ ps, p.vendor ≠ none) ∧
    (∃ p ∈ ps, d ∈ p.listed) ∧ d ∉ devices ps :=
  ⟨[⟨some "Intel".toList, none, none⟩, ⟨some "Intel".toList, some [7], none⟩], 7, by decide, by decide, by decide⟩

/-- C69: each device is given the same number of threads, and these are the threads for OpenCL of C37 and C53. -/
theorem C69_threads [DecidableEq D] (ds : List D) (perGpu hardware : Nat) (n : Int) :
    (sparkThreads ds perGpu hardware n).map Option.isSome = Run.sparkKinds ds.length perGpu hardware n ∧
    ∀ d, (sparkThreads ds perGpu hardware n).count (some d) = perGpu * ds.count d := by
  have hlen : (ds.flatMap fun d => List.replicate perGpu (some d)).length = ds.length * perGpu := by
    induction ds with
    | nil => simp
    | cons d ds ih => rw [List.flatMap_cons, List.length_append, ih, List.length_replicate, List.length_cons, Nat.succ_mul, Nat.add_comm]
  have hmap : (ds.flatMap fun d => List.replicate perGpu (some d)).map Option.isSome =
      List.replicate (ds.length * perGpu) true := by
    rw [← hlen, List.eq_replicate_iff]
    refine ⟨List.length_map _, fun b hb => ?_⟩
    obtain ⟨o, ho, rfl⟩ := List.mem_map.1 hb
    obtain ⟨d, _, hd⟩ := List.mem_flatMap.1 ho
    rw [List.eq_of_mem_replicate hd]
    rfl
  constructor
  · unfold sparkThreads Run.sparkKinds
    simp only [List.map_append, List.map_replicate, hmap, hlen, Option.isSome_none]
  · intro d
    unfold sparkThreads
    simp only [List.count_append]
    rw [List.count_eq_zero_of_not_mem (l := List.replicate _ none) (by simp)]
    clear hlen hmap
    induction ds with
    | nil => simp
    | cons e ds ih =>
      rw [List.flatMap_cons, List.count_append, List.count_cons, List.count_replicate, Nat.add_zero, Nat.mul_add]
      rw [Nat.add_zero] at ih
      rw [ih]
      by_cases he : e = d
      · subst he; simp; omega
      · simp [he]

/-- C69: whatever has been requested before, a program is built for the size of the polynomials of its degree, that is,
with the value of `POLY_SIZE` supposed for its kernels.  A program that has been requested before is not built again. -/
theorem C69_programs {builds : List Char → Bool} {ds : List Nat} {cache : OMap Nat Program}
    (h : requests builds ds = .ok cache) {d : Nat} (hd : d + 1 < 4294967296) :
    (∀ cache' p, programEvaluation builds cache d = .ok (cache', p) →
      ∀ rt t, polySize p.options = some (kernelFor rt t d).polySize) ∧
    (d ∈ ds → ∀ builds', ∃ p, programEvaluation builds' cache d = .ok (cache, p)) ∧
    (d ∉ ds → ((∃ r, programEvaluation builds cache d = .ok r) ↔ builds (buildOptions d) = true)) ∧
    programEvaluation builds cache d ≠ .ub := by
  have hb := Built.requests h
  have hf := hb.find d
  refine ⟨fun cache' p hp rt t => ?_, fun hm builds' => ?_, fun hm => ?_, ?_⟩
  · rw [(hb.request hp).2.1]
    show polySize (buildOptions d) = some (d + 1)
    rw [polySize_options]
    unfold u32
    rw [Nat.mod_eq_of_lt hd]
  · rw [if_pos hm] at hf
    exact ⟨_, by unfold programEvaluation; rw [hf]⟩
  · rw [if_neg hm] at hf
    constructor
    · rintro ⟨⟨c, p⟩, hp⟩
      exact (hb.request hp).2.2.resolve_left hm
    · intro hx
      unfold programEvaluation makeProgram
      rw [hf, if_pos hx]
      simp only [Res.bind_ok, OMap.find?_set_self hb.sorted]
      exact ⟨_, rfl⟩
  · unfold programEvaluation makeProgram
    by_cases hm : d ∈ ds
    · rw [if_pos hm] at hf
      rw [hf]
      simp
    · rw [if_neg hm] at hf
      rw [hf]
      dsimp only
      by_cases hx : builds (buildOptions d) = true
      · rw [if_pos hx]
        simp [OMap.find?_set_self hb.sorted]
      · rw [if_neg hx]
        intro h
        cases h

/-- Three platforms of two vendors, one of which does not tell its vendor and one of which has no accelerators. -/
example : devices [⟨some "A".toList, some [1, 2], none⟩, ⟨none, some [3], some [4]⟩, ⟨some "B".toList, some [5], some [6]⟩]
    = [1, 2, 5, 6] := by decide

/-- Hypotheses of `C69_all`. -/
example : ∃ ps : List (Platform Nat), (∀ p ∈ ps, p.vendor ≠ none) ∧ (ps.map Platform.vendor).Nodup ∧ devices ps = [3, 1, 4] :=
  ⟨[⟨some "A".toList, some [3], some [1]⟩, ⟨some "B".toList, none, some [4]⟩], by decide, by decide, by decide⟩

/-- Hypotheses of `C69_programs`: degree 6 is requested twice and built once. -/
example : ∃ cache, requests (fun _ => true) [6, 5, 6] = .ok cache ∧ cache.map Prod.fst = [5, 6] ∧
    cache.map (fun e => String.ofList e.2.options) = ["-DPOLY_SIZE=6", "-DPOLY_SIZE=7"] := ⟨_, rfl, rfl, rfl⟩

end OpenCL
end Hycu
