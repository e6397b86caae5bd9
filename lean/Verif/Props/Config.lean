import Verif.Model.Config
import Verif.Lemmas.Stream

/-!
Properties C07 (second part), C44 and C45: configurations.
-/

namespace Hycu

/-! ### C07 -/

/-- C07: a configuration that `verify` accepts has a positive package size, prime, exponents and genus, and its
directory exists. -/
theorem C07_verified {c : ConfigNode} {fs fs' : FileSystem} {create : Res Bool}
    (h : c.verify fs create = .ok (fs', true)) :
    1 ≤ c.packageSize ∧ 1 ≤ c.prime ∧ 1 ≤ c.primeExponent ∧ 1 ≤ c.genus ∧ 1 ≤ c.countExponent ∧
      (∃ d, fs' c.resultPath = some d) ∧ ∀ p, p ≠ c.resultPath → fs' p = fs p := by
  unfold ConfigNode.verify at h
  split at h
  · rename_i h0
    split at h
    · rename_i hd
      injection h with h
      injection h with h1 h2
      subst h1
      simp only [decide_eq_true_eq] at h2
      exact ⟨by omega, by omega, by omega, by omega, by omega, Option.isSome_iff_exists.1 hd, fun _ _ => rfl⟩
    · obtain ⟨b, _, h⟩ := Res.bind_eq_ok.1 h
      split at h
      · injection h with h
        injection h with h1 h2
        subst h1
        simp only [decide_eq_true_eq] at h2
        refine ⟨by omega, by omega, by omega, by omega, by omega, ⟨[], if_pos rfl⟩, fun p hp => if_neg hp⟩
      · injection h with h
        injection h with h1 h2
        exact absurd h2 (by simp)
  · injection h with h
    injection h with h1 h2
    exact absurd h2 (by simp)

/-- C07: conversely, `verify` accepts every configuration with positive entries whose directory exists. -/
theorem C07_accepts {c : ConfigNode} {fs : FileSystem} (create : Res Bool) (h1 : 1 ≤ c.prime)
    (h2 : 1 ≤ c.primeExponent) (h3 : 1 ≤ c.genus) (h4 : 1 ≤ c.countExponent) (h5 : 1 ≤ c.packageSize)
    (h6 : fs c.resultPath ≠ none) : c.verify fs create = .ok (fs, true) := by
  unfold ConfigNode.verify
  rw [if_pos ⟨by omega, by omega, by omega, by omega⟩, if_pos (by
    cases h : fs c.resultPath with
    | none => exact absurd h h6
    | some d => rfl)]
  simp only [ne_eq, decide_not, Res.ok.injEq, Prod.mk.injEq, Bool.not_eq_true', decide_eq_false_iff_not, true_and]
  omega

/-! ### C44 -/

theorem showAux_head : ∀ fuel n, n < fuel → 0 < n → ∃ c l, showAux fuel n = c :: l ∧ c ≠ '0'
  | 0, _, h, _ => absurd h (by omega)
  | fuel + 1, n, h, hn => by
    unfold showAux
    split
    · rename_i h10
      refine ⟨_, _, rfl, fun hc => ?_⟩
      have := digitChar_cases h10
      rw [hc] at this
      have h0 : ('0' : Char).toNat = 48 := by decide
      omega
    · obtain ⟨c, l, h1, h2⟩ := showAux_head fuel (n / 10) (by omega) (by omega)
      exact ⟨c, l ++ [digitChar (n % 10)], by rw [h1]; rfl, h2⟩

namespace Yaml

theorem digit_isDigit {c : Char} (h : isDigit c = true) : digit c = some (c.toNat - 48) := by
  unfold isDigit at h
  simp only [Bool.and_eq_true, decide_eq_true_eq] at h
  exact if_pos h

theorem isDigitOf_ten {c : Char} (h : isDigit c = true) : isDigitOf 10 c = true := by
  unfold isDigitOf
  rw [digit_isDigit h]
  unfold isDigit at h
  simp only [Bool.and_eq_true, decide_eq_true_eq] at h ⊢
  omega

theorem valueOf_ten (l : List Char) (h : ∀ c ∈ l, isDigit c = true) : valueOf 10 l = digitsVal l := by
  unfold valueOf digitsVal
  have : ∀ a, l.foldl (fun a c => 10 * a + (digit c).getD 0) a = l.foldl (fun a c => 10 * a + (c.toNat - 48)) a := by
    induction l with
    | nil => intro a; rfl
    | cons c l ih =>
      intro a
      rw [List.foldl_cons, List.foldl_cons, digit_isDigit (h c (by simp)), ih fun c hc => h c (by simp [hc])]
      rfl
  exact this 0

/-- Reading what `encode` writes for a number. -/
theorem intOfText_show (n : Nat) : intOfText (showNat n) = if n < 2147483648 then some (n : Int) else none := by
  by_cases h0 : n = 0
  · subst h0
    decide
  · obtain ⟨c, l, h1, h2⟩ := showAux_head (n + 1) n (by omega) (by omega)
    have h1 : showNat n = c :: l := h1
    have hc : isDigit c = true := showNat_digit n c (by rw [h1]; simp)
    have hsp : (showNat n).dropWhile isSpace = showNat n := by
      rw [h1, List.dropWhile_cons_of_neg (by rw [isSpace_of_isDigit hc]; simp)]
    have hsign : IStream.sign (showNat n) = (false, showNat n) := by
      have := IStream.sign_showInt (n : Int) []
      rw [IStream.showInt_ofNat, decide_eq_false (by omega)] at this
      simpa using this
    have hbase : base (showNat n) = (10, showNat n) := by
      rw [h1]
      unfold base
      split
      · rename_i h
        exact absurd (List.cons.inj h).1 h2
      · rename_i h
        exact absurd (List.cons.inj h).1 h2
      · rename_i h
        exact absurd (List.cons.inj h).1 h2
      · rfl
    have htake := takeWhile_append_stop (p := isDigitOf 10) (l := showNat n) (r := [])
      (fun c hc => isDigitOf_ten (showNat_digit n c hc)) (by simp)
    rw [List.append_nil] at htake
    unfold intOfText
    simp only [hsp, hsign, hbase, htake.1, htake.2]
    rw [valueOf_ten _ (showNat_digit n), showNat_val]
    simp only [Bool.false_eq_true, if_false]
    by_cases hn : n < 2147483648
    · rw [if_pos hn, if_pos ⟨showNat_ne n, rfl, by omega, by omega⟩]
    · rw [if_neg hn, if_neg (by omega)]

/-- The conversion of a printed number. -/
def inInt (n : Nat) : Res Nat := if n < 2147483648 then .ok n else .abort

theorem asUnsigned_show (n : Nat) : asUnsigned (some (.scalar (showNat n))) = inInt n := by
  unfold asUnsigned as inInt
  simp only [intOfText_show]
  by_cases hn : n < 2147483648
  · rw [if_pos hn, if_pos hn]
    show Res.ok (toUnsigned n) = .ok n
    unfold toUnsigned
    congr 1
    omega
  · rw [if_neg hn, if_neg hn]
    rfl

theorem as_bool (b : Bool) : as boolOfText (some (.scalar (if b then "true".toList else "false".toList))) = .ok b := by
  cases b <;> decide

end Yaml

/-- The numbers of a configuration are in the range of `int`. -/
def ConfigNode.InRange (c : ConfigNode) : Prop :=
  c.prime < 2147483648 ∧ c.primeExponent < 2147483648 ∧ c.genus < 2147483648 ∧ c.countExponent < 2147483648 ∧
    c.packageSize < 2147483648

/-- The entries of an encoded configuration. -/
theorem encode_eq (c : ConfigNode) : Yaml.encode c =
    [("Prime".toList, .scalar (showNat c.prime)), ("PrimeExponent".toList, .scalar (showNat c.primeExponent)),
      ("Genus".toList, .scalar (showNat c.genus)),
      ("WithMarkedPoint".toList, .scalar (if c.withMarkedPoint then "true".toList else "false".toList))] ++
    (if c.countExponent ≠ c.genus then [("CountExponent".toList, YamlValue.scalar (showNat c.countExponent))] else []) ++
    [("ResultPath".toList, .scalar c.resultPath), ("PackageSize".toList, .scalar (showNat c.packageSize))] := by
  unfold Yaml.encode
  by_cases h : c.countExponent = c.genus
  · simp only [h, ne_eq, not_true, if_false]
    rfl
  · simp only [h, ne_eq, not_false_eq_true, if_true]
    rfl

theorem decode_encode (c : ConfigNode) : Yaml.decode (Yaml.encode c) = (do
    let prime ← Yaml.inInt c.prime
    let primeExponent ← Yaml.inInt c.primeExponent
    let genus ← Yaml.inInt c.genus
    let countExponent ← if c.countExponent ≠ c.genus then Yaml.inInt c.countExponent else Res.ok genus
    let packageSize ← Yaml.inInt c.packageSize
    pure (some ⟨prime, primeExponent, genus, c.withMarkedPoint, countExponent, c.resultPath, packageSize⟩)) := by
  rw [encode_eq]
  unfold Yaml.decode Yaml.countExponent
  by_cases h : c.countExponent = c.genus
  · simp only [h, ne_eq, not_true, if_false, List.append_nil]
    have g1 : ∀ (a b d e : YamlValue) (f g : YamlValue),
        let n : YamlMap := [("Prime".toList, a), ("PrimeExponent".toList, b), ("Genus".toList, d),
          ("WithMarkedPoint".toList, e)] ++ [("ResultPath".toList, f), ("PackageSize".toList, g)]
        Yaml.get n "Prime".toList = some a ∧ Yaml.get n "PrimeExponent".toList = some b ∧
          Yaml.get n "Genus".toList = some d ∧ Yaml.get n "WithMarkedPoint".toList = some e ∧
          Yaml.get n "ResultPath".toList = some f ∧ Yaml.get n "PackageSize".toList = some g ∧
          Yaml.get n "CountExponent".toList = none := by
      intros
      exact ⟨rfl, rfl, rfl, rfl, rfl, rfl, rfl⟩
    obtain ⟨e1, e2, e3, e4, e5, e6, e7⟩ := g1 (.scalar (showNat c.prime)) (.scalar (showNat c.primeExponent))
      (.scalar (showNat c.genus)) (.scalar (if c.withMarkedPoint then "true".toList else "false".toList))
      (.scalar c.resultPath) (.scalar (showNat c.packageSize))
    rw [e1, e2, e3, e4, e5, e6, e7]
    rw [if_neg (by simp)]
    simp only [Yaml.asUnsigned_show, Yaml.as_bool]
    rfl
  · simp only [h, ne_eq, not_false_eq_true, if_true]
    have g1 : ∀ (a b d e x f g : YamlValue),
        let n : YamlMap := [("Prime".toList, a), ("PrimeExponent".toList, b), ("Genus".toList, d),
          ("WithMarkedPoint".toList, e)] ++ [("CountExponent".toList, x)] ++
          [("ResultPath".toList, f), ("PackageSize".toList, g)]
        Yaml.get n "Prime".toList = some a ∧ Yaml.get n "PrimeExponent".toList = some b ∧
          Yaml.get n "Genus".toList = some d ∧ Yaml.get n "WithMarkedPoint".toList = some e ∧
          Yaml.get n "ResultPath".toList = some f ∧ Yaml.get n "PackageSize".toList = some g ∧
          Yaml.get n "CountExponent".toList = some x := by
      intros
      exact ⟨rfl, rfl, rfl, rfl, rfl, rfl, rfl⟩
    obtain ⟨e1, e2, e3, e4, e5, e6, e7⟩ := g1 (.scalar (showNat c.prime)) (.scalar (showNat c.primeExponent))
      (.scalar (showNat c.genus)) (.scalar (if c.withMarkedPoint then "true".toList else "false".toList))
      (.scalar (showNat c.countExponent)) (.scalar c.resultPath) (.scalar (showNat c.packageSize))
    rw [e1, e2, e3, e4, e5, e6, e7]
    rw [if_neg (by simp)]
    simp only [Yaml.asUnsigned_show, Yaml.as_bool]
    rfl

/-- C44: decoding an encoded configuration returns it, if its numbers are in the range of `int`. -/
theorem C44_round_trip (c : ConfigNode) (h : c.InRange) : Yaml.decode (Yaml.encode c) = .ok (some c) := by
  obtain ⟨h1, h2, h3, h4, h5⟩ := h
  rw [decode_encode]
  unfold Yaml.inInt
  simp only [if_pos h1, if_pos h2, if_pos h3, if_pos h4, if_pos h5]
  by_cases h : c.countExponent = c.genus
  · simp only [h, ne_eq, not_true, if_false]
    cases c
    simp only at h
    subst h
    rfl
  · simp only [h, ne_eq, not_false_eq_true, if_true]
    rfl

/-- C44: a configuration with a number that is not in the range of `int` does not survive: decoding throws. -/
theorem C44_out_of_range (c : ConfigNode) (h : ¬ c.InRange) : Yaml.decode (Yaml.encode c) = .abort := by
  have hbad : ∀ n, n < 2147483648 ∨ Yaml.inInt n = .abort := by
    intro n
    by_cases hn : n < 2147483648
    · exact Or.inl hn
    · exact Or.inr (if_neg hn)
  have hok : ∀ n, n < 2147483648 → Yaml.inInt n = .ok n := fun n hn => if_pos hn
  rw [decode_encode]
  rcases hbad c.prime with h1 | h1
  · rw [hok _ h1, Res.bind_ok]
    rcases hbad c.primeExponent with h2 | h2
    · rw [hok _ h2, Res.bind_ok]
      rcases hbad c.genus with h3 | h3
      · rw [hok _ h3, Res.bind_ok]
        by_cases hg : c.countExponent = c.genus
        · rcases hbad c.packageSize with h5 | h5
          · exact absurd ⟨h1, h2, h3, hg ▸ h3, h5⟩ h
          · simp only [hg, ne_eq, not_true, if_false]
            rw [Res.bind_ok, h5]
            rfl
        · simp only [hg, ne_eq, not_false_eq_true, if_true]
          rcases hbad c.countExponent with h4 | h4
          · rcases hbad c.packageSize with h5 | h5
            · exact absurd ⟨h1, h2, h3, h4, h5⟩ h
            · rw [hok _ h4, Res.bind_ok, h5]
              rfl
          · rw [h4]
            rfl
      · rw [h3]
        rfl
    · rw [h2]
      rfl
  · rw [h1]
    rfl

/-- C44: `decode` returns false exactly if one of the five necessary entries is missing. -/
theorem C44_missing (n : YamlMap) : Yaml.decode n = .ok none ↔
    ∃ k ∈ ["Prime", "PrimeExponent", "Genus", "ResultPath", "PackageSize"], ∀ v, (String.toList k, v) ∉ n := by
  have hget : ∀ (n : YamlMap) (k : List Char), (Yaml.get n k).isNone = true ↔ ∀ v, (k, v) ∉ n := by
    intro n k
    induction n with
    | nil => simp [Yaml.get]
    | cons e n ih =>
      unfold Yaml.get
      split
      · rename_i he
        simp only [Option.isNone_some, Bool.false_eq_true, false_iff, not_forall, not_not]
        exact ⟨e.2, by rw [← he]; simp⟩
      · rename_i he
        rw [ih]
        constructor
        · intro h v hv
          rcases List.mem_cons.1 hv with hv | hv
          · exact he (by rw [← hv])
          · exact h v hv
        · intro h v hv
          exact h v (List.mem_cons_of_mem _ hv)
  have hex : (∃ k ∈ ["Prime", "PrimeExponent", "Genus", "ResultPath", "PackageSize"], ∀ v, (String.toList k, v) ∉ n) ↔
      ((Yaml.get n "Prime".toList).isNone ∨ (Yaml.get n "PrimeExponent".toList).isNone ∨
        (Yaml.get n "Genus".toList).isNone ∨ (Yaml.get n "ResultPath".toList).isNone ∨
        (Yaml.get n "PackageSize".toList).isNone) := by
    simp only [hget, List.mem_cons, List.not_mem_nil, or_false, exists_eq_or_imp, exists_eq_left]
  rw [hex]
  unfold Yaml.decode
  constructor
  · intro h
    split at h
    · assumption
    · obtain ⟨_, _, h⟩ := Res.bind_eq_ok.1 h
      obtain ⟨_, _, h⟩ := Res.bind_eq_ok.1 h
      obtain ⟨_, _, h⟩ := Res.bind_eq_ok.1 h
      obtain ⟨_, _, h⟩ := Res.bind_eq_ok.1 h
      obtain ⟨_, _, h⟩ := Res.bind_eq_ok.1 h
      obtain ⟨_, _, h⟩ := Res.bind_eq_ok.1 h
      obtain ⟨_, _, h⟩ := Res.bind_eq_ok.1 h
      exact absurd (Res.ok.inj h) (by simp)
  · intro h
    rw [if_pos h]

/-- C44: without `CountExponent` the points are counted up to the genus. -/
theorem C44_count_exponent {n : YamlMap} {c : ConfigNode} (h : Yaml.decode n = .ok (some c))
    (hn : ∀ v, ("CountExponent".toList, v) ∉ n) : c.countExponent = c.genus := by
  have hget : Yaml.get n "CountExponent".toList = none := by
    clear h
    induction n with
    | nil => rfl
    | cons e n ih =>
      unfold Yaml.get
      rw [if_neg, ih fun v hv => hn v (List.mem_cons_of_mem _ hv)]
      intro he
      exact hn e.2 (by rw [← he]; simp)
  unfold Yaml.decode at h
  split at h
  · exact absurd (Res.ok.inj h) (by simp)
  · obtain ⟨_, _, h⟩ := Res.bind_eq_ok.1 h
    obtain ⟨_, _, h⟩ := Res.bind_eq_ok.1 h
    obtain ⟨g, _, h⟩ := Res.bind_eq_ok.1 h
    obtain ⟨_, _, h⟩ := Res.bind_eq_ok.1 h
    obtain ⟨e, he, h⟩ := Res.bind_eq_ok.1 h
    obtain ⟨_, _, h⟩ := Res.bind_eq_ok.1 h
    obtain ⟨_, _, h⟩ := Res.bind_eq_ok.1 h
    unfold Yaml.countExponent at he
    rw [hget] at he
    obtain rfl := Option.some.inj (Res.ok.inj h)
    exact (Res.ok.inj he).symm

/-- C44: if the five entries are there but `WithMarkedPoint` is missing, `decode` throws; nothing is decoded. -/
theorem C44_marked_point {n : YamlMap} (h5 : ∀ k ∈ ["Prime", "PrimeExponent", "Genus", "ResultPath", "PackageSize"],
    ∃ v, (String.toList k, v) ∈ n) (hn : ∀ v, ("WithMarkedPoint".toList, v) ∉ n) : Yaml.decode n = .abort := by
  have hget : Yaml.get n "WithMarkedPoint".toList = none := by
    clear h5
    induction n with
    | nil => rfl
    | cons e n ih =>
      unfold Yaml.get
      rw [if_neg, ih fun v hv => hn v (List.mem_cons_of_mem _ hv)]
      intro he
      exact hn e.2 (by rw [← he]; simp)
  have hint : ∀ (v : Option YamlValue), Yaml.asUnsigned v = .abort ∨ ∃ a, Yaml.asUnsigned v = .ok a := by
    intro v
    unfold Yaml.asUnsigned Yaml.as
    split
    · split
      · exact Or.inr ⟨_, rfl⟩
      · exact Or.inl rfl
    · exact Or.inl rfl
  unfold Yaml.decode
  rw [if_neg, hget]
  · rcases hint (Yaml.get n "Prime".toList) with h | ⟨a, h⟩
    · rw [h]; rfl
    rw [h, Res.bind_ok]
    rcases hint (Yaml.get n "PrimeExponent".toList) with h | ⟨a, h⟩
    · rw [h]; rfl
    rw [h, Res.bind_ok]
    rcases hint (Yaml.get n "Genus".toList) with h | ⟨a, h⟩
    · rw [h]; rfl
    rw [h, Res.bind_ok]
    rfl
  · intro h
    have hfalse := (C44_missing n).1 (by unfold Yaml.decode; rw [if_pos h])
    obtain ⟨k, hk, hv⟩ := hfalse
    obtain ⟨v, hv'⟩ := h5 k hk
    exact hv v hv'

/-! ### C45 -/

/-- Loading what was saved gives it back and leaves what was written after it. -/
def Serial.RoundTrip {α : Type} (s : Serial α) : Prop := ∀ x ar, s.load (s.save x ++ ar) = some (x, ar)

/-- All components do. -/
def Serial.All.RoundTrip : {ts : List Type} → Serial.All ts → Prop
  | [], .nil => True
  | _ :: _, .cons s l => s.RoundTrip ∧ l.RoundTrip

/-- C45: tuples of any length, if their entries do. -/
theorem C45_tuple {ts : List Type} (l : Serial.All ts) (h : l.RoundTrip) : (Serial.tuple l).RoundTrip := by
  intro x ar
  show Serial.loadTuple l (Serial.saveTuple l x ++ ar) = some (x, ar)
  induction l generalizing ar with
  | nil => rfl
  | cons s l ih =>
    obtain ⟨x, a⟩ := x
    show (do
      let (y, ar) ← s.load ((s.save x ++ Serial.saveTuple l a) ++ ar)
      let (b, ar) ← Serial.loadTuple l ar
      pure ((y, b), ar)) = some ((x, a), ar)
    rw [List.append_assoc, h.1 x]
    show (do
      let (b, ar) ← Serial.loadTuple l (Serial.saveTuple l a ++ ar)
      pure ((x, b), ar)) = some ((x, a), ar)
    rw [ih h.2]
    rfl

/-- C45: configurations. -/
theorem C45_config : Serial.config.RoundTrip := by
  intro c ar
  rfl

/-- C45: primitive values. -/
theorem C45_primitive : Serial.uint.RoundTrip ∧ Serial.bool.RoundTrip ∧ Serial.str.RoundTrip :=
  ⟨fun _ _ => rfl, fun _ _ => rfl, fun _ _ => rfl⟩

/-- C45: vectors, in particular blocks, which are vectors of pairs. -/
theorem C45_vector {α : Type} (s : Serial α) (h : s.RoundTrip) : (Serial.vector s).RoundTrip := by
  intro v ar
  show Serial.loadItems s v.length (v.flatMap s.save ++ ar) = some (v, ar)
  induction v with
  | nil => rfl
  | cons x v ih =>
    show (do
      let (y, ar) ← s.load ((s.save x ++ v.flatMap s.save) ++ ar)
      let (l, ar) ← Serial.loadItems s v.length ar
      pure (y :: l, ar)) = some (x :: v, ar)
    rw [List.append_assoc, h x]
    show (do
      let (l, ar) ← Serial.loadItems s v.length (v.flatMap s.save ++ ar)
      pure (x :: l, ar)) = some (x :: v, ar)
    rw [ih]
    rfl

/-! ### Examples -/

/-- A configuration for genus 2 over the field with 49 elements. -/
def exampleConfig : ConfigNode := ⟨7, 2, 2, false, 1, "out/g2".toList, 100⟩

/-- Hypotheses of C07. -/
example : exampleConfig.verify (fun _ => none) (.ok true) =
    .ok (FileSystem.set (fun _ => none) "out/g2".toList [], true) := rfl

/-- Hypotheses of C44. -/
example : exampleConfig.InRange := by unfold ConfigNode.InRange; decide

example : ¬ ({ exampleConfig with packageSize := 3000000000 } : ConfigNode).InRange := by
  unfold ConfigNode.InRange; decide

example : Yaml.decode [("Prime".toList, .scalar "0x7".toList), ("PrimeExponent".toList, .scalar "1".toList),
    ("Genus".toList, .scalar "2".toList), ("WithMarkedPoint".toList, .scalar "No".toList),
    ("ResultPath".toList, .scalar "a".toList), ("PackageSize".toList, .scalar "-1".toList)] =
    .ok (some ⟨7, 1, 2, false, 2, "a".toList, 4294967295⟩) := by decide

/-- `WithMarkedPoint` is missing. -/
example : ∀ k ∈ ["Prime", "PrimeExponent", "Genus", "ResultPath", "PackageSize"], ∃ v, (String.toList k, v) ∈
    ([("Prime".toList, .scalar "7".toList), ("PrimeExponent".toList, .scalar "1".toList),
      ("Genus".toList, .scalar "2".toList), ("ResultPath".toList, .scalar "a".toList),
      ("PackageSize".toList, .scalar "10".toList)] : YamlMap) := by
  intro k hk
  simp only [List.mem_cons, List.not_mem_nil, or_false] at hk
  rcases hk with rfl | rfl | rfl | rfl | rfl
  · exact ⟨.scalar "7".toList, by decide⟩
  · exact ⟨.scalar "1".toList, by decide⟩
  · exact ⟨.scalar "2".toList, by decide⟩
  · exact ⟨.scalar "a".toList, by decide⟩
  · exact ⟨.scalar "10".toList, by decide⟩

/-- The last entry of a tuple comes first in the archive. -/
example : (Serial.tuple (.cons Serial.uint (.cons Serial.str .nil))).save (5, "ab".toList, ()) =
    [.uint 5, .str "ab".toList] ∧
    (Serial.All.cons Serial.uint (.cons Serial.str .nil)).RoundTrip :=
  ⟨rfl, fun _ _ => rfl, fun _ _ => rfl, trivial⟩

end Hycu
