import Verif.Spec.Faults
import Verif.Lemmas.Directory
import Verif.Lemmas.StoreTally

/-!
Reading files that were cut off, and reading any text.
-/

namespace Hycu

/-! ### Prefixes -/

/-- A prefix of `a ++ b` ends in `a` or later. -/
theorem prefix_append_cases {α : Type} {p a b : List α} (h : p <+: a ++ b) :
    p <+: a ∨ ∃ t, p = a ++ t ∧ t <+: b := by
  rcases Nat.le_total p.length a.length with hl | hl
  · exact Or.inl (List.prefix_of_prefix_length_le h (List.prefix_append a b) hl)
  · obtain ⟨t, rfl⟩ := List.prefix_of_prefix_length_le (List.prefix_append a b) h hl
    exact Or.inr ⟨t, rfl, (List.prefix_append_right_inj a).1 h⟩

theorem showAux_eq : ∀ (f g n : Nat), n < f → n < g → showAux f n = showAux g n
  | 0, _, _, h, _ => absurd h (by omega)
  | _, 0, _, _, h => absurd h (by omega)
  | f + 1, g + 1, n, h1, h2 => by
    unfold showAux
    split
    · rfl
    · rw [showAux_eq f g (n / 10) (by omega) (by omega)]

theorem showNat_step {n : Nat} (h : ¬ n < 10) : showNat n = showNat (n / 10) ++ [digitChar (n % 10)] := by
  conv_lhs => unfold showNat showAux
  rw [if_neg h, showAux_eq n (n / 10 + 1) (n / 10) (by omega) (by omega)]
  rfl

/-- What is left of a printed number if it is cut off is the number without some of its digits. -/
theorem prefix_showNat : ∀ (n : Nat) {t : List Char}, t <+: showNat n → t ≠ [] →
    ∃ j, t = showNat (n / 10 ^ j) ∧ (j = 0 ∨ 10 ^ j ≤ n) := by
  intro n
  induction n using Nat.strongRecOn with
  | ind n ih =>
    intro t ht hne
    by_cases hn : n < 10
    · have h1 : showNat n = [digitChar n] := by
        unfold showNat showAux
        rw [if_pos hn]
      rw [h1] at ht
      rcases List.prefix_cons_iff.1 ht with h | ⟨u, hu, h⟩
      · exact absurd h hne
      · rw [List.prefix_nil.1 h] at hu
        exact ⟨0, by rw [hu, pow_zero, Nat.div_one, h1], Or.inl rfl⟩
    · have h1 := showNat_step hn
      rw [h1] at ht
      rcases prefix_append_cases ht with h | ⟨u, hu, h⟩
      · obtain ⟨j, h2, h3⟩ := ih (n / 10) (by omega) h hne
        refine ⟨j + 1, ?_, Or.inr ?_⟩
        · rw [h2, pow_succ', Nat.div_div_eq_div_mul]
        · rcases h3 with rfl | h3
          · omega
          · rw [pow_succ]
            calc 10 ^ j * 10 ≤ n / 10 * 10 := Nat.mul_le_mul_right _ h3
              _ ≤ n := Nat.div_mul_le_self n 10
      · rcases List.prefix_cons_iff.1 h with rfl | ⟨v, hv, h⟩
        · rw [List.append_nil] at hu
          rw [hu] at hne ⊢
          obtain ⟨j, h2, h3⟩ := ih (n / 10) (by omega) (List.prefix_refl _) hne
          refine ⟨j + 1, ?_, Or.inr ?_⟩
          · rw [h2, pow_succ', Nat.div_div_eq_div_mul]
          · rcases h3 with rfl | h3
            · omega
            · rw [pow_succ]
              calc 10 ^ j * 10 ≤ n / 10 * 10 := Nat.mul_le_mul_right _ h3
                _ ≤ n := Nat.div_mul_le_self n 10
        · rw [List.prefix_nil.1 h] at hv
          exact ⟨0, by rw [hu, hv, pow_zero, Nat.div_one, ← h1], Or.inl rfl⟩

/-! ### Streams -/

namespace IStream

theorem length_sign (l : List Char) : (sign l).2.length ≤ l.length := by
  unfold sign
  split <;> simp

theorem length_dropWhile_le {p : Char → Bool} (l : List Char) : (l.dropWhile p).length ≤ l.length :=
  (List.dropWhile_suffix p).length_le

theorem readInt_length (s : IStream) (v : Option Int) : (s.readInt v).1.rest.length ≤ s.rest.length := by
  unfold readInt
  split
  · exact le_refl _
  · split
    · simp
    · rename_i c l h
      have h1 : (c :: l).length ≤ s.rest.length := h ▸ length_dropWhile_le s.rest
      have h2 := length_sign (c :: l)
      have h3 := length_dropWhile_le (p := isDigit) (sign (c :: l)).2
      dsimp only
      split <;> dsimp only <;> omega

theorem readInt_some (s : IStream) (w : Int) : ∃ z, (s.readInt (some w)).2 = some z := by
  unfold readInt
  split
  · exact ⟨w, rfl⟩
  · split
    · exact ⟨w, rfl⟩
    · dsimp only
      split <;> exact ⟨_, rfl⟩

theorem readInt_nonblank {l : List Char} (h : ∃ c ∈ l, isSpace c = false) (v : Option Int) :
    ∃ z, ((ofList l).readInt v).2 = some z := by
  unfold readInt ofList
  simp only [good, Bool.not_false, Bool.and_self, Bool.not_true, Bool.false_eq_true, if_false]
  split
  · rename_i h1
    obtain ⟨c, hc, h⟩ := h
    have := List.dropWhile_eq_nil_iff.1 h1 c hc
    rw [h] at this
    exact absurd this (by simp)
  · split <;> exact ⟨_, rfl⟩

/-- A successful read. -/
theorem readInt_ok {s : IStream} {v : Option Int} (h : (s.readInt v).1.fail = false) :
    s.good = true ∧ (s.readInt v).1.rest.length < s.rest.length ∧ ∃ z, (s.readInt v).2 = some z := by
  have hg : s.good = true := by
    by_contra hg
    unfold readInt at h
    rw [if_pos (by simpa using hg)] at h
    exact absurd h (by simp)
  refine ⟨hg, ?_⟩
  unfold readInt at h ⊢
  rw [if_neg (by simpa using hg)] at h ⊢
  split at h
  · exact absurd h (by simp)
  · rename_i c l h1
    have h2 : (c :: l).length ≤ s.rest.length := h1 ▸ length_dropWhile_le s.rest
    have h3 := length_sign (c :: l)
    dsimp only at h ⊢
    split at h
    · exact absurd h (by simp)
    · rename_i hd
      rw [if_neg hd]
      refine ⟨?_, _, rfl⟩
      have h4 : ((sign (c :: l)).2.takeWhile isDigit).length ≠ 0 := by
        intro h0
        exact hd (by rw [List.length_eq_zero_iff.1 h0]; rfl)
      have h5 := congrArg List.length (List.takeWhile_append_dropWhile (p := isDigit) (l := (sign (c :: l)).2))
      rw [List.length_append] at h5
      dsimp only
      omega

theorem peek_some {s s' : IStream} {c : Char} (h : s.peek = (s', some c)) :
    s' = s ∧ s.good = true ∧ ∃ l, s.rest = c :: l := by
  unfold peek at h
  split at h
  · exact absurd (Prod.ext_iff.1 h).2 (by simp)
  · rename_i hg
    split at h
    · exact absurd (Prod.ext_iff.1 h).2 (by simp)
    · rename_i d l hl
      have h1 := Prod.ext_iff.1 h
      have h2 := Option.some.inj h1.2
      exact ⟨h1.1.symm, by simpa using hg, l, by rw [hl, h2]⟩

theorem ignore_of {s : IStream} {c : Char} {l : List Char} (hg : s.good = true) (h : s.rest = c :: l) :
    s.ignore.rest = l := by
  unfold ignore
  rw [if_neg (by simpa using hg), h]

/-- Digits up to the end of the text: nothing can be read afterwards. -/
theorem readInt_digits_eof (sp t : List Char) (hsp : ∀ c ∈ sp, isSpace c = true) (ht : ∀ c ∈ t, isDigit c = true)
    (v : Option Int) : ((⟨sp ++ t, false, false⟩ : IStream).readInt v).1.good = false := by
  have hd : (sp ++ t).dropWhile isSpace = t := by
    rw [List.dropWhile_append_of_pos hsp]
    cases t with
    | nil => rfl
    | cons c t => rw [List.dropWhile_cons_of_neg (by simp [isSpace_of_isDigit (ht c (by simp))])]
  unfold readInt
  simp only [good, Bool.not_false, Bool.and_self, Bool.not_true, Bool.false_eq_true, if_false, hd]
  cases t with
  | nil => rfl
  | cons c t =>
    have hs : sign (c :: t) = (false, c :: t) := by
      have hc := ht c (by simp)
      unfold sign
      split
      · rename_i h
        rw [(List.cons.inj h).1] at hc
        exact absurd hc (by decide)
      · rename_i h
        rw [(List.cons.inj h).1] at hc
        exact absurd hc (by decide)
      · rfl
    have h2 : (c :: t).dropWhile isDigit = [] := List.dropWhile_eq_nil_iff.2 ht
    dsimp only
    rw [hs]
    dsimp only
    rw [h2]
    split <;> simp

end IStream

/-! ### Keys -/

namespace Key

theorem parseOffsets_total : ∀ (fuel : Nat) (s : IStream) (w : Int) (os : List Int), s.rest.length < fuel →
    ∃ os', parseOffsets fuel s (some w) os = .ok os'
  | 0, _, _, _, h => absurd h (by omega)
  | fuel + 1, s, w, os, h => by
    unfold parseOffsets
    have h1 := s.readInt_length (some w)
    obtain ⟨z, hz⟩ := s.readInt_some w
    generalize s.readInt (some w) = p at h1 hz
    obtain ⟨s', v⟩ := p
    obtain rfl : v = some z := hz
    dsimp only at h1 ⊢
    split
    · rename_i s2 hp
      obtain ⟨rfl, hg, l, hl⟩ := IStream.peek_some hp
      refine parseOffsets_total fuel _ z _ ?_
      rw [IStream.ignore_of hg hl]
      rw [hl, List.length_cons] at h1
      omega
    · exact ⟨_, rfl⟩

theorem parseRamification_total : ∀ (fuel : Nat) (s : IStream) (v : Option Int) (rs : List Nat),
    s.rest.length < fuel → (∃ z, (s.readInt v).2 = some z) → ∃ k, parseRamification fuel s v rs = .ok k
  | 0, _, _, _, h, _ => absurd h (by omega)
  | fuel + 1, s, v, rs, h, hz => by
    unfold parseRamification
    have h1 := s.readInt_length v
    obtain ⟨z, hz⟩ := hz
    generalize s.readInt v = p at h1 hz
    obtain ⟨s', v⟩ := p
    obtain rfl : v = some z := hz
    dsimp only at h1 ⊢
    split
    · rename_i s2 hp
      obtain ⟨rfl, hg, l, hl⟩ := IStream.peek_some hp
      refine parseRamification_total fuel _ _ _ ?_ (IStream.readInt_some _ z)
      rw [IStream.ignore_of hg hl]
      rw [hl, List.length_cons] at h1
      omega
    · rename_i s2 hp
      obtain ⟨rfl, hg, l, hl⟩ := IStream.peek_some hp
      obtain ⟨os, hos⟩ := parseOffsets_total (s2.ignore.rest.length + 1) s2.ignore z [] (by omega)
      rw [hos]
      exact ⟨_, rfl⟩
    · exact ⟨_, rfl⟩

/-- Any text with a character other than white space is read as some key; otherwise an integer is used that was never
assigned. -/
theorem parse_total {l : List Char} (h : ∃ c ∈ l, isSpace c = false) : ∃ k, parse l = .ok k :=
  parseRamification_total _ _ _ _ (by simp [IStream.ofList]) (IStream.readInt_nonblank h none)

theorem parse_blank {l : List Char} (h : ∀ c ∈ l, isSpace c = true) : parse l = .ub := by
  unfold parse parseRamification IStream.ofList
  rw [Record.readInt_blank l h]

end Key

/-! ### Records -/

namespace Record

theorem readBlockLoop_total : ∀ (fuel : Nat) (s : IStream) (v w : Option Int) (b : Block), s.rest.length < fuel →
    ∃ b', readBlockLoop fuel s v w b = .ok b'
  | 0, _, _, _, _, h => absurd h (by omega)
  | fuel + 1, s, v, w, b, h => by
    unfold readBlockLoop
    dsimp only
    by_cases hf : ((s.readInt v).1.readInt w).1.fail = true
    · rw [if_pos hf]
      exact ⟨_, rfl⟩
    · rw [if_neg hf]
      obtain ⟨h1, h2, y, hy⟩ := IStream.readInt_ok (by simpa using hf)
      have h3 : (s.readInt v).1.fail = false := by
        simp only [IStream.good, Bool.and_eq_true, Bool.not_eq_true'] at h1
        exact h1.2
      obtain ⟨_, h4, x, hx⟩ := IStream.readInt_ok h3
      rw [hx, hy]
      exact readBlockLoop_total fuel _ _ _ _ (by omega)

/-- Reading a block always ends. -/
theorem extractBlock_total (s : IStream) : ∃ b, extractBlock s = .ok ((s.getline '\n' []).1, b) := by
  unfold extractBlock
  obtain ⟨b, hb⟩ := readBlockLoop_total ((s.getline '\n' []).2.length + 1) (IStream.ofList (s.getline '\n' []).2)
    none none [] (by simp [IStream.ofList])
  exact ⟨b, by dsimp only; rw [hb]; rfl⟩

theorem extractLoop_eof (fuel : Nat) {s : IStream} (h : s.eof = true) (r : OSet Block) :
    extractLoop (fuel + 1) s r = .ok r := by
  unfold extractLoop
  rw [if_pos h]

theorem extractLoop_total : ∀ (fuel : Nat) (l : List Char) (r : OSet Block), l.length + 1 < fuel →
    ∃ r', extractLoop fuel ⟨l, false, false⟩ r = .ok r' ∧ ∀ b ∈ r, b ∈ r'
  | 0, _, _, h => absurd h (by omega)
  | fuel + 1, l, r, h => by
    unfold extractLoop
    rw [if_neg (by simp)]
    obtain ⟨b, hb⟩ := extractBlock_total ⟨l, false, false⟩
    rw [hb, Res.bind_ok]
    dsimp only
    unfold IStream.getline
    simp only [IStream.good, Bool.not_false, Bool.and_self, Bool.not_true, Bool.false_eq_true, if_false]
    split
    · obtain ⟨f, rfl⟩ : ∃ f, fuel = f + 1 := ⟨fuel - 1, by omega⟩
      refine ⟨_, extractLoop_eof f rfl _, fun b' hb' => OSet.mem_insert.2 (Or.inr hb')⟩
    · rename_i c t ht
      have hl : (c :: t).length ≤ l.length := ht ▸ IStream.length_dropWhile_le l
      rw [List.length_cons] at hl
      obtain ⟨r', h1, h2⟩ := extractLoop_total fuel t (OSet.insert r b) (by omega)
      exact ⟨r', h1, fun b' hb' => h2 b' (OSet.mem_insert.2 (Or.inr hb'))⟩

/-- Reading any text as a record ends and keeps the blocks that are there. -/
theorem extract_total (r : OSet Block) (t : List Char) :
    ∃ r', extract r (IStream.ofList t) = .ok r' ∧ ∀ b ∈ r, b ∈ r' := by
  unfold extract IStream.ofList
  cases t with
  | nil => exact ⟨r, rfl, fun _ h => h⟩
  | cons c t =>
    have hpeek : (⟨c :: t, false, false⟩ : IStream).peek.1 = ⟨c :: t, false, false⟩ := rfl
    rw [hpeek]
    exact extractLoop_total _ _ _ (by simp)

/-- A file that cannot be opened: the loop does not end in any number of turns. -/
theorem extractLoop_unreadable : ∀ (fuel : Nat) (r : OSet Block), extractLoop fuel ⟨[], false, true⟩ r = .diverge
  | 0, _ => rfl
  | fuel + 1, r => by
    unfold extractLoop
    rw [if_neg (by simp)]
    have h : extractBlock ⟨[], false, true⟩ = .ok (⟨[], false, true⟩, []) := by decide
    rw [h, Res.bind_ok]
    exact extractLoop_unreadable fuel _

theorem extract_unreadable (r : OSet Block) : extract r ⟨[], false, true⟩ = .diverge :=
  extractLoop_unreadable _ r

/-- What is read from the line of a block that was cut off. -/
theorem readBlockLoop_cut : ∀ (b : Block) (fuel : Nat) (sp part : List Char) (v w : Option Int) (acc : Block),
    part.length < fuel → (∀ c ∈ sp, isSpace c = true) → Fits b → part <+: printBlock b →
    ∃ b', readBlockLoop fuel ⟨sp ++ part, false, false⟩ v w acc = .ok (acc ++ b') ∧ CutBlock b b'
  | _, 0, _, _, _, _, _, hf, _, _, _ => absurd hf (by omega)
  | [], fuel + 1, sp, part, v, w, acc, _, hsp, _, hp => by
    obtain rfl := List.prefix_nil.1 (show part <+: [] from hp)
    refine ⟨[], ?_, .pairs [] [] rfl⟩
    unfold readBlockLoop
    simp only [List.append_nil]
    rw [readInt_blank sp hsp]
    simp only
    rw [if_pos (readInt_fail _ rfl _)]
  | x :: b, fuel + 1, sp, part, v, w, acc, hf, hsp, hb, hp => by
    have hx := hb x (by simp)
    have hpr : printBlock (x :: b) = showNat x.1 ++ (' ' :: (showNat x.2 ++ (' ' :: printBlock b))) := by
      simp [printBlock]
    have stop : ∀ s : IStream, (s.readInt v).1.good = false →
        readBlockLoop (fuel + 1) s v w acc = .ok (acc ++ []) := by
      intro s hs
      unfold readBlockLoop
      simp only
      rw [if_pos, List.append_nil]
      generalize s.readInt v = q at hs
      unfold IStream.readInt
      rw [if_pos (by rw [hs]; rfl)]
    rw [hpr] at hp
    rcases prefix_append_cases hp with h | ⟨t, rfl, h⟩
    · exact ⟨[], stop _ (IStream.readInt_digits_eof sp part hsp (fun c hc => showNat_digit _ c (h.subset hc)) v),
        .pairs [] _ rfl⟩
    rcases List.prefix_cons_iff.1 h with rfl | ⟨u, rfl, h'⟩
    · rw [List.append_nil]
      exact ⟨[], stop _ (IStream.readInt_digits_eof sp _ hsp (showNat_digit _) v), .pairs [] _ rfl⟩
    have h1 := IStream.readInt_show (z := (x.1 : Int)) (by omega) (by omega) sp (' ' :: u) hsp (by simp [isDigit]) v
    rw [IStream.showInt_ofNat] at h1
    simp only [List.isEmpty_cons] at h1
    unfold readBlockLoop
    simp only
    rw [h1]
    simp only
    rcases prefix_append_cases h' with h | ⟨t, rfl, ht⟩
    · by_cases hu : u = []
      · subst hu
        rw [readInt_blank [' '] (by simp [isSpace])]
        refine ⟨[], ?_, .pairs [] _ rfl⟩
        simp
      · obtain ⟨j, rfl, hj⟩ := prefix_showNat _ h hu
        have hle : x.2 / 10 ^ j ≤ x.2 := Nat.div_le_self _ _
        have h2 := IStream.readInt_show (z := ((x.2 / 10 ^ j : Nat) : Int))
          (le_trans (by decide) (Int.natCast_nonneg _)) (by omega) [' '] []
          (by simp [isSpace]) (by simp) w
        rw [IStream.showInt_ofNat, List.append_nil] at h2
        simp only [List.isEmpty_nil] at h2
        rw [show ' ' :: showNat (x.2 / 10 ^ j) = [' '] ++ showNat (x.2 / 10 ^ j) from rfl, h2]
        simp only [Bool.false_eq_true, if_false]
        rw [Key.toUnsigned_ofNat (by omega), Key.toUnsigned_ofNat (by omega)]
        refine ⟨[(x.1, x.2 / 10 ^ j)], ?_, .number [] b x.1 x.2 _ rfl ⟨j, rfl, hj⟩⟩
        obtain ⟨f, rfl⟩ : ∃ f, fuel = f + 1 := ⟨fuel - 1, by
          simp only [List.length_append, List.length_cons] at hf
          omega⟩
        unfold readBlockLoop
        simp only
        rw [if_pos]
        exact readInt_fail _ (by simp [IStream.readInt, IStream.good]) _
    · have h2 : ∃ e t', ' ' :: (showNat x.2 ++ t) = [' '] ++ (showNat x.2 ++ t) ∧
          (t = [] ∧ e = true ∧ t' = [] ∨ e = false ∧ t = ' ' :: t' ∧ t' <+: printBlock b) := by
        rcases List.prefix_cons_iff.1 ht with rfl | ⟨t', rfl, h3⟩
        · exact ⟨true, [], rfl, Or.inl ⟨rfl, rfl, rfl⟩⟩
        · exact ⟨false, t', rfl, Or.inr ⟨rfl, rfl, h3⟩⟩
      obtain ⟨e, t', he, h⟩ := h2
      rw [he]
      have h2 := IStream.readInt_show (z := (x.2 : Int)) (by omega) (by omega) [' '] t (by simp [isSpace])
        (by rcases h with ⟨rfl, _⟩ | ⟨_, rfl, _⟩ <;> simp [isDigit]) w
      rw [IStream.showInt_ofNat] at h2
      rw [h2]
      simp only [Bool.false_eq_true, if_false]
      rw [Key.toUnsigned_ofNat (by omega), Key.toUnsigned_ofNat (by omega)]
      rcases h with ⟨rfl, _⟩ | ⟨_, rfl, h5⟩
      · refine ⟨[x], ?_, .pairs [x] b rfl⟩
        obtain ⟨f, rfl⟩ : ∃ f, fuel = f + 1 := ⟨fuel - 1, by
          simp only [List.length_append, List.length_cons] at hf
          omega⟩
        unfold readBlockLoop
        simp only
        rw [if_pos]
        exact readInt_fail _ (by simp [IStream.readInt, IStream.good]) _
      · obtain ⟨b', h3, h4⟩ := readBlockLoop_cut b fuel [' '] t' (some (x.1 : Int)) (some (x.2 : Int)) (acc ++ [x])
          (by simp only [List.length_append, List.length_cons] at hf; omega) (by simp [isSpace])
          (fun y hy => hb y (by simp [hy])) h5
        rw [List.append_assoc] at h3
        refine ⟨x :: b', h3, ?_⟩
        cases h4 with
        | pairs _ rest h => exact .pairs (x :: b') rest (by rw [h]; rfl)
        | number l rest a y y' h hy => exact .number (x :: l) rest a y y' (by rw [h]; rfl) hy

theorem extractBlock_cut {b : Block} (hb : Fits b) {part : List Char} (hp : part <+: printBlock b) :
    ∃ b', extractBlock ⟨part, false, false⟩ = .ok (⟨[], true, part.isEmpty⟩, b') ∧ CutBlock b b' := by
  unfold extractBlock
  rw [IStream.getline_end]
  · obtain ⟨b', h1, h2⟩ := readBlockLoop_cut b (part.length + 1) [] part none none [] (by omega) (by simp) hb hp
    simp only [List.nil_append] at h1
    refine ⟨b', ?_, h2⟩
    simp only [IStream.ofList]
    rw [h1]
    rfl
  · intro c hc
    rcases printBlock_char (hp.subset hc) with rfl | h
    · decide
    · exact ne_of_isDigit h _ (by decide)

/-- Reading a record that was cut off: complete lines, then one block that may be cut off. -/
theorem extractLoop_cut : ∀ (l : List Block) (part : List Char), (∀ b ∈ l, Fits b) → part <+: print l →
    ∃ l₁ l₂ b', l = l₁ ++ l₂ ∧ (∀ (fuel : Nat) (r : OSet Block), part.length + 1 < fuel →
      extractLoop fuel ⟨part, false, false⟩ r = .ok (OSet.insert (l₁.foldl OSet.insert r) b')) ∧
      (b' = [] ∨ ∃ b l₃, l₂ = b :: l₃ ∧ CutBlock b b')
  | [], part, _, hp => by
    obtain rfl := List.prefix_nil.1 (show part <+: [] from hp)
    exact ⟨[], [], [], rfl, fun fuel r hf => extractLoop_print [] fuel r (by simpa using hf) (by simp), Or.inl rfl⟩
  | b :: l, part, h, hp => by
    have hpr : print (b :: l) = printBlock b ++ '\n' :: print l := by simp [print]
    rw [hpr] at hp
    have stop : ∀ part, part <+: printBlock b → ∃ l₁ l₂ b', b :: l = l₁ ++ l₂ ∧
        (∀ (fuel : Nat) (r : OSet Block), part.length + 1 < fuel →
          extractLoop fuel ⟨part, false, false⟩ r = .ok (OSet.insert (l₁.foldl OSet.insert r) b')) ∧
          (b' = [] ∨ ∃ b l₃, l₂ = b :: l₃ ∧ CutBlock b b') := by
      intro part hq
      obtain ⟨b', h1, h2⟩ := extractBlock_cut (h b (by simp)) hq
      refine ⟨[], b :: l, b', rfl, fun fuel r hf => ?_, Or.inr ⟨b, l, rfl, h2⟩⟩
      obtain ⟨f, rfl⟩ : ∃ f, fuel = f + 2 := ⟨fuel - 2, by omega⟩
      unfold extractLoop
      rw [if_neg (by simp), h1, Res.bind_ok]
      exact extractLoop_eof f rfl _
    rcases prefix_append_cases hp with hq | ⟨t, rfl, hq⟩
    · exact stop _ hq
    rcases List.prefix_cons_iff.1 hq with rfl | ⟨t', rfl, hq'⟩
    · rw [List.append_nil]
      exact stop _ (List.prefix_refl _)
    · obtain ⟨l₁, l₂, b', h1, h2, h3⟩ := extractLoop_cut l t' (fun b hb => h b (by simp [hb])) hq'
      refine ⟨b :: l₁, l₂, b', by rw [h1]; rfl, fun fuel r hf => ?_, h3⟩
      obtain ⟨f, rfl⟩ : ∃ f, fuel = f + 1 := ⟨fuel - 1, by omega⟩
      unfold extractLoop
      rw [if_neg (by simp), extractBlock_print (h b (by simp)), Res.bind_ok]
      exact h2 f _ (by simp only [List.length_append, List.length_cons] at hf; omega)

/-- Reading a record that was cut off. -/
theorem extract_cut {l : List Block} (h : ∀ b ∈ l, Fits b) {part : List Char} (hp : part <+: print l) :
    ∃ l₁ l₂, l = l₁ ++ l₂ ∧ ∃ bs : List Block, (∀ r, extract r (IStream.ofList part) =
      .ok ((l₁ ++ bs).foldl OSet.insert r)) ∧
      (bs = [] ∨ ∃ b', bs = [b'] ∧ (b' = [] ∨ ∃ b l₃, l₂ = b :: l₃ ∧ CutBlock b b')) := by
  cases part with
  | nil => exact ⟨[], l, rfl, [], fun r => rfl, Or.inl rfl⟩
  | cons c t =>
    obtain ⟨l₁, l₂, b', h1, h2, h3⟩ := extractLoop_cut l (c :: t) h hp
    refine ⟨l₁, l₂, h1, [b'], fun r => ?_, Or.inr ⟨b', rfl, h3⟩⟩
    unfold extract IStream.ofList
    have hpeek : (⟨c :: t, false, false⟩ : IStream).peek.1 = ⟨c :: t, false, false⟩ := rfl
    rw [hpeek, h2 _ _ (by simp), List.foldl_append]
    rfl

end Record

/-! ### Stores -/

namespace Store

/-- Reading the line of an entry that was cut off: nothing, a count of zero for some key, or a shortened count. -/
theorem extractLine_cut {k : Key} (hk : k.Fits) {z : Int} (hz : 0 ≤ z) {part : List Char} (hne : part ≠ [])
    (hp : part <+: k.print ++ ':' :: showInt z) :
    ∃ e : Key × Int, (∀ m, extractLine m part = addEntry m e.1 e.2) ∧ 0 ≤ e.2 ∧
      (e.2 = 0 ∨ e.1 = k ∧ e.2 ≤ z) ∧ (0 < z → part ≠ k.print ++ ':' :: showInt z → e.2 < z) ∧
      (part = k.print ++ ':' :: showInt z → e = (k, z)) := by
  by_cases hfull : part = k.print ++ ':' :: showInt z
  · exact ⟨(k, z), fun m => by rw [hfull, extractLine_print m hk], hz, Or.inr ⟨rfl, le_refl _⟩,
      fun _ h => absurd hfull h, fun _ => rfl⟩
  suffices h : ∃ e : Key × Int, (∀ m, extractLine m part = addEntry m e.1 e.2) ∧ 0 ≤ e.2 ∧
      (e.2 = 0 ∨ e.1 = k ∧ e.2 ≤ z) ∧ (0 < z → part ≠ k.print ++ ':' :: showInt z → e.2 < z) by
    obtain ⟨e, h1, h2, h3, h4⟩ := h
    exact ⟨e, h1, h2, h3, h4, fun h => absurd h hfull⟩
  have hkey : part <+: k.print → ∃ e : Key × Int, (∀ m, extractLine m part = addEntry m e.1 e.2) ∧ e.2 = 0 := by
    intro h
    have hns : ∃ c ∈ part, isSpace c = false := by
      obtain ⟨c, t, rfl⟩ := List.exists_cons_of_ne_nil hne
      refine ⟨c, by simp, ?_⟩
      rcases Key.print_char (h.subset (List.mem_cons_self ..)) with rfl | rfl | rfl | h
      · decide
      · decide
      · decide
      · exact isSpace_of_isDigit h
    obtain ⟨k', hk'⟩ := Key.parse_total hns
    refine ⟨(k', 0), fun m => ?_, rfl⟩
    unfold extractLine IStream.ofList
    rw [IStream.getline_end fun c hc => (Key.print_char_ne (h.subset hc)).1]
    dsimp only
    rw [hk', Res.bind_ok]
    rfl
  have hzero : ∀ e : Key × Int, e.2 = 0 → 0 ≤ e.2 ∧ (e.2 = 0 ∨ e.1 = k ∧ e.2 ≤ z) ∧
      (0 < z → part ≠ k.print ++ ':' :: showInt z → e.2 < z) := by
    intro e he
    rw [he]
    exact ⟨le_refl _, Or.inl rfl, fun h _ => h⟩
  rcases prefix_append_cases hp with h | ⟨t, rfl, h⟩
  · obtain ⟨e, h1, h2⟩ := hkey h
    exact ⟨e, h1, hzero e h2⟩
  rcases List.prefix_cons_iff.1 h with rfl | ⟨ds, rfl, hds⟩
  · obtain ⟨e, h1, h2⟩ := hkey (by rw [List.append_nil])
    exact ⟨e, h1, hzero e h2⟩
  have hline : ∀ m, extractLine m (k.print ++ ':' :: ds) = addEntry m k (fmpzOfString ds) := by
    intro m
    unfold extractLine IStream.ofList
    rw [IStream.getline_delim fun c hc => (Key.print_char_ne hc).1]
    simp only
    rw [IStream.getline_end]
    · rw [Key.parse_print hk]
      rfl
    · intro c hc
      rcases showInt_char (hds.subset hc) with rfl | h
      · decide
      · exact ne_of_isDigit h _ (by decide)
  by_cases hd : ds = []
  · subst hd
    exact ⟨(k, 0), hline, hzero (k, 0) rfl⟩
  · obtain ⟨n, rfl⟩ := Int.eq_ofNat_of_zero_le hz
    rw [IStream.showInt_ofNat] at hds
    obtain ⟨j, rfl, hj⟩ := prefix_showNat _ hds hd
    have hv : fmpzOfString (showNat (n / 10 ^ j)) = ((n / 10 ^ j : Nat) : Int) := by
      rw [← IStream.showInt_ofNat, fmpzOfString_show]
    have hle : n / 10 ^ j ≤ n := Nat.div_le_self _ _
    refine ⟨(k, ((n / 10 ^ j : Nat) : Int)), fun m => by rw [hline, hv], Int.natCast_nonneg _, Or.inr ⟨rfl, by omega⟩, ?_⟩
    intro hn hne'
    have hj0 : j ≠ 0 := by
      rintro rfl
      exact hne' (by rw [pow_zero, Nat.div_one, IStream.showInt_ofNat])
    have : n / 10 ^ j < n := Nat.div_lt_self (by omega) (Nat.one_lt_pow hj0 (by decide))
    show ((n / 10 ^ j : Nat) : Int) < (n : Int)
    omega

theorem total_ge_zero : ∀ {l : List (Key × Int)}, (∀ e ∈ l, 0 ≤ e.2) → ∀ k : Key, 0 ≤ total l k
  | [], _, k => le_of_eq (total_nil k).symm
  | e :: l, h, k => by
    have h1 := h e (by simp)
    have h2 := total_ge_zero (fun x hx => h x (by simp [hx]) : ∀ x ∈ l, 0 ≤ x.2) k
    rw [total_cons]
    split <;> omega

theorem extractLoop_done (fuel : Nat) (old : List Char) (m : StoreMap) {s : IStream} (h : s.good = false) :
    extractLoop (fuel + 1) s old m = .ok m := by
  unfold extractLoop IStream.getline
  rw [if_pos (by rw [h]; rfl)]
  simp

/-- What is read from the beginning of a printed store. -/
structure Cut (l : List (Key × Int)) (part : List Char) (l' : List (Key × Int)) : Prop where
  reads : ∀ (fuel : Nat) (old : List Char) (m : StoreMap), part.length < fuel →
    extractLoop fuel ⟨part, false, false⟩ old m = l'.foldlM (fun m e => addEntry m e.1 e.2) m
  nonneg : ∀ e ∈ l', 0 ≤ e.2
  le : ∀ k, total l' k ≤ total l k
  small : (∀ e ∈ l, Small e.2) → ∀ e ∈ l', Small e.2
  less : (∀ e ∈ l, 0 < e.2) → part ≠ print l → part ++ ['\n'] ≠ print l → ∃ k, total l' k < total l k
  whole : part = print l ∨ part ++ ['\n'] = print l → ∀ k, total l' k = total l k

theorem cut : ∀ (l : List (Key × Int)) (part : List Char), (∀ e ∈ l, e.1.Fits) → (∀ e ∈ l, 0 ≤ e.2) →
    part <+: print l → ∃ l', Cut l part l'
  | [], part, _, _, hp => by
    obtain rfl := List.prefix_nil.1 (show part <+: [] from hp)
    refine ⟨[], ?_, by simp, fun k => le_refl _, fun _ => by simp, fun _ h => absurd rfl h, fun _ k => rfl⟩
    intro fuel old m hf
    exact extractLoop_print [] fuel old m (by simpa using hf) (by simp)
  | e :: l, part, hk, hz, hp => by
    have hpr : print (e :: l) = (e.1.print ++ ':' :: showInt e.2) ++ '\n' :: print l := by
      simp [print]
    have hz' : ∀ x ∈ l, 0 ≤ x.2 := fun x hx => hz x (by simp [hx])
    have hez := hz e (by simp)
    have hl0 : ∀ k, 0 ≤ total l k := total_ge_zero hz'
    rw [hpr] at hp
    have hnl : ∀ c ∈ e.1.print ++ ':' :: showInt e.2, c ≠ '\n' := by
      intro c hc
      rcases List.mem_append.1 hc with hc | hc
      · exact (Key.print_char_ne hc).2
      rcases List.mem_cons.1 hc with rfl | hc
      · decide
      rcases showInt_char hc with rfl | h
      · decide
      · exact ne_of_isDigit h _ (by decide)
    have stop : ∀ part, part <+: e.1.print ++ ':' :: showInt e.2 → ∃ l', Cut (e :: l) part l' := by
      intro part hq
      by_cases hne : part = []
      · subst hne
        refine ⟨[], ?_, by simp, fun k => ?_, fun _ => by simp, fun hpos _ _ => ?_, fun hw => ?_⟩
        · intro fuel old m hf
          exact extractLoop_print [] fuel old m (by simpa using hf) (by simp)
        · exact total_ge_zero hz k
        · refine ⟨e.1, ?_⟩
          have := hpos e (by simp)
          have h2 := hl0 e.1
          rw [total_cons, if_pos rfl]
          show (0 : Int) < _
          omega
        · have hlen : (print (e :: l)).length ≤ 1 := by
            rcases hw with hw | hw <;> rw [← hw] <;> simp
          rw [hpr] at hlen
          simp only [List.length_append, List.length_cons] at hlen
          omega
      · obtain ⟨x, h1, h2, h3, h4, h6⟩ := extractLine_cut (hk e (by simp)) hez hne hq
        refine ⟨[x], ?_, by simpa using h2, fun k => ?_, fun hs => ?_, fun hpos hn1 hn2 => ?_, fun hw => ?_⟩
        · intro fuel old m hf
          obtain ⟨c, t, rfl⟩ := List.exists_cons_of_ne_nil hne
          obtain ⟨f, rfl⟩ : ∃ f, fuel = f + 2 := ⟨fuel - 2, by rw [List.length_cons] at hf; omega⟩
          unfold extractLoop
          rw [IStream.getline_end fun c hc => hnl c (hq.subset hc)]
          simp only [List.isEmpty_cons, Bool.false_eq_true, if_false, List.foldlM_cons, List.foldlM_nil]
          rw [h1]
          cases addEntry m x.1 x.2 with
          | ok m' =>
            rw [Res.bind_ok]
            exact extractLoop_done f _ m' rfl
          | ub => rfl
          | abort => rfl
          | diverge => rfl
        · have := hl0 k
          rw [total_cons, total_cons, total_nil]
          rcases h3 with h3 | ⟨h3, h5⟩
          · rw [h3]
            split <;> split <;> omega
          · rw [h3]
            split <;> omega
        · intro y hy
          rw [List.mem_singleton.1 hy]
          have hse := hs e (by simp)
          unfold Small at hse ⊢
          rcases h3 with h3 | ⟨_, h5⟩ <;> omega
        · have he := hpos e (by simp)
          by_cases hfull : part = e.1.print ++ ':' :: showInt e.2
          · -- the line is complete, so something after it is missing
            have hl : l ≠ [] := by
              rintro rfl
              exact hn2 (by rw [hpr, hfull]; rfl)
            obtain ⟨y, l2, rfl⟩ := List.exists_cons_of_ne_nil hl
            have hy := hpos y (by simp)
            have hl2 := total_ge_zero (fun x hx => hz x (by simp [hx]) : ∀ x ∈ l2, 0 ≤ x.2) y.1
            refine ⟨y.1, ?_⟩
            rw [total_cons, total_cons, total_cons, total_nil, if_pos (rfl : y.1 = y.1)]
            rcases h3 with h3 | ⟨h3, h5⟩
            · rw [h3]
              split <;> split <;> omega
            · rw [h3]
              split <;> omega
          · have := h4 he hfull
            have hl1 := hl0 e.1
            refine ⟨e.1, ?_⟩
            rw [total_cons, total_cons, total_nil, if_pos (rfl : e.1 = e.1)]
            split <;> omega
        · have hle := hq.length_le
          rw [hpr] at hw
          rcases hw with hw | hw
          · rw [hw] at hle
            simp only [List.length_append, List.length_cons] at hle
            omega
          · have hlen := congrArg List.length hw
            simp only [List.length_append, List.length_cons, List.length_nil] at hlen hle
            have hl : l = [] := by
              rw [← List.length_eq_zero_iff]
              have := length_print l
              omega
            subst hl
            have hx := h6 (List.append_cancel_right hw)
            intro k
            rw [hx]
    rcases prefix_append_cases hp with hq | ⟨t, rfl, hq⟩
    · exact stop _ hq
    rcases List.prefix_cons_iff.1 hq with rfl | ⟨t', rfl, hq'⟩
    · rw [List.append_nil]
      exact stop _ (List.prefix_refl _)
    · obtain ⟨l', h⟩ := cut l t' (fun x hx => hk x (by simp [hx])) hz' hq'
      refine ⟨e :: l', ?_, ?_, fun k => ?_, fun hs => ?_, fun hpos hn1 hn2 => ?_, fun hw k => ?_⟩
      · intro fuel old m hf
        obtain ⟨f, rfl⟩ : ∃ f, fuel = f + 1 := ⟨fuel - 1, by omega⟩
        unfold extractLoop
        rw [IStream.getline_delim hnl]
        simp only [Bool.false_eq_true, if_false, List.foldlM_cons]
        rw [extractLine_print m (hk e (by simp))]
        cases addEntry m e.1 e.2 with
        | ok m' =>
          simp only [Res.bind_ok]
          exact h.reads f _ m' (by simp only [List.length_append, List.length_cons] at hf; omega)
        | ub => rfl
        | abort => rfl
        | diverge => rfl
      · intro y hy
        rcases List.mem_cons.1 hy with rfl | hy
        · exact hez
        · exact h.nonneg y hy
      · have := h.le k
        rw [total_cons, total_cons]
        omega
      · intro y hy
        rcases List.mem_cons.1 hy with rfl | hy
        · exact hs y (by simp)
        · exact h.small (fun x hx => hs x (by simp [hx])) y hy
      · obtain ⟨k, hk'⟩ := h.less (fun x hx => hpos x (by simp [hx])) (fun h => hn1 (by rw [hpr, h]))
          (fun h => hn2 (by rw [hpr, ← h]; simp))
        refine ⟨k, ?_⟩
        rw [total_cons, total_cons]
        omega
      · rw [total_cons, total_cons, h.whole]
        rw [hpr] at hw
        rcases hw with hw | hw
        · exact Or.inl (List.cons.inj (List.append_cancel_left hw)).2
        · rw [List.append_assoc, List.cons_append] at hw
          exact Or.inr (List.cons.inj (List.append_cancel_left hw)).2

/-- Reading a text that begins with a printed store. -/
theorem extractLoop_append (t : List Char) : ∀ (l : List (Key × Int)) (fuel : Nat) (old : List Char) (m : StoreMap),
    l.length ≤ fuel → (∀ e ∈ l, e.1.Fits) →
    ∃ old', extractLoop fuel ⟨print l ++ t, false, false⟩ old m = (do
      let m' ← l.foldlM (fun m e => addEntry m e.1 e.2) m
      extractLoop (fuel - l.length) ⟨t, false, false⟩ old' m')
  | [], _, old, _, _, _ => ⟨old, rfl⟩
  | e :: l, 0, _, _, hf, _ => absurd hf (by simp)
  | e :: l, fuel + 1, old, m, hf, h => by
    have hp : print (e :: l) ++ t = (e.1.print ++ ':' :: showInt e.2) ++ '\n' :: (print l ++ t) := by
      simp [print]
    have hnl : ∀ c ∈ e.1.print ++ ':' :: showInt e.2, c ≠ '\n' := by
      intro c hc
      rcases List.mem_append.1 hc with hc | hc
      · exact (Key.print_char_ne hc).2
      rcases List.mem_cons.1 hc with rfl | hc
      · decide
      rcases showInt_char hc with rfl | h
      · decide
      · exact ne_of_isDigit h _ (by decide)
    have hstep : ∀ old, extractLoop (fuel + 1) ⟨print (e :: l) ++ t, false, false⟩ old m = (do
        let m' ← addEntry m e.1 e.2
        extractLoop fuel ⟨print l ++ t, false, false⟩ (e.1.print ++ ':' :: showInt e.2) m') := by
      intro old
      conv_lhs => unfold extractLoop
      rw [hp, IStream.getline_delim hnl]
      simp only [Bool.false_eq_true, if_false]
      rw [extractLine_print m (h e (by simp))]
    rw [hstep, List.foldlM_cons]
    cases addEntry m e.1 e.2 with
    | ok m' =>
      obtain ⟨old', h1⟩ := extractLoop_append t l fuel (e.1.print ++ ':' :: showInt e.2) m' (by simpa using hf)
        fun x hx => h x (by simp [hx])
      refine ⟨old', ?_⟩
      rw [Res.bind_ok, Res.bind_ok, h1, List.length_cons, Nat.add_sub_add_right]
    | ub => exact ⟨[], rfl⟩
    | abort => exact ⟨[], rfl⟩
    | diverge => exact ⟨[], rfl⟩

end Store
end Hycu
