import Verif.Lemmas.Stream
import Verif.Lemmas.StoreTally

/-!
Reading back printed keys, stores and records.
-/

namespace Hycu

/-! ### Keys -/

namespace Key

theorem showList_cons_cons (a b : List Char) (l : List (List Char)) :
    showList (a :: b :: l) = a ++ ',' :: showList (b :: l) := by
  simp [showList]

theorem showList_singleton (a : List Char) : showList [a] = a := by simp [showList]

theorem toUnsigned_ofNat {n : Nat} (h : n < 4294967296) : toUnsigned (n : Int) = n := by
  unfold toUnsigned
  omega

theorem parseOffsets_print : ∀ (os : List Int) (acc : List Int) (fuel : Nat) (v : Option Int), os ≠ [] →
    os.length ≤ fuel → (∀ z ∈ os, -2147483648 ≤ z ∧ z < 2147483648) →
    parseOffsets fuel ⟨showList (os.map showInt), false, false⟩ v acc = .ok (acc ++ os)
  | [], _, _, _, h, _, _ => absurd rfl h
  | z :: os, acc, 0, _, _, hf, _ => absurd hf (by simp)
  | [z], acc, fuel + 1, v, _, _, hz => by
    have h := IStream.readInt_show (hz z (by simp)).1 (by have := (hz z (by simp)).2; omega) [] [] (by simp)
      (by simp) v
    simp only [List.nil_append, List.append_nil] at h
    unfold parseOffsets
    rw [List.map_singleton, showList_singleton, h]
    simp [IStream.peek, IStream.good]
  | z :: w :: os, acc, fuel + 1, v, _, hf, hz => by
    have ih := parseOffsets_print (w :: os) (acc ++ [z]) fuel (some z) (by simp) (by simpa using hf)
      fun x hx => hz x (by simp only [List.mem_cons] at hx ⊢; tauto)
    have h := IStream.readInt_show (hz z (by simp)).1 (by have := (hz z (by simp)).2; omega) []
      (',' :: showList ((w :: os).map showInt)) (by simp) (by simp [isDigit]) v
    simp only [List.nil_append] at h
    unfold parseOffsets
    rw [List.map_cons, List.map_cons, showList_cons_cons, ← List.map_cons, h]
    simp only [IStream.peek, IStream.good, IStream.ignore, List.isEmpty_cons, Bool.not_false, Bool.and_self,
      Bool.not_true, Bool.false_eq_true, if_false]
    rw [ih]
    simp

theorem parseRamification_print (os : List Int) (hos : os ≠ []) (hz : ∀ z ∈ os, -2147483648 ≤ z ∧ z < 2147483648) :
    ∀ (rs : List Nat) (acc : List Nat) (fuel : Nat) (v : Option Int), rs ≠ [] → rs.length ≤ fuel →
    (∀ r ∈ rs, r < 2147483648) →
    parseRamification fuel ⟨showList (rs.map showNat) ++ ';' :: showList (os.map showInt), false, false⟩ v acc =
      .ok ⟨acc ++ rs, os⟩
  | [], _, _, _, h, _, _ => absurd rfl h
  | z :: _, acc, 0, _, _, hf, _ => absurd hf (by simp)
  | [r], acc, fuel + 1, v, _, _, hr => by
    have hr := hr r (by simp)
    have h := IStream.readInt_show (z := (r : Int)) (by omega) (by omega) []
      (';' :: showList (os.map showInt)) (by simp) (by simp [isDigit]) v
    rw [IStream.showInt_ofNat] at h
    simp only [List.nil_append] at h
    unfold parseRamification
    rw [List.map_singleton, showList_singleton, h]
    simp only [IStream.peek, IStream.good, IStream.ignore, List.isEmpty_cons, Bool.not_false, Bool.and_self,
      Bool.not_true, Bool.false_eq_true, if_false]
    rw [parseOffsets_print os [] _ _ hos ?_ hz, toUnsigned_ofNat (by omega)]
    · rfl
    · clear h hos hz
      have : ∀ os : List Int, os.length ≤ (showList (os.map showInt)).length + 1 := by
        intro os
        induction os with
        | nil => simp
        | cons z os ih =>
          cases os with
          | nil => simp
          | cons w os =>
            rw [List.map_cons, List.map_cons, showList_cons_cons, ← List.map_cons]
            simp only [List.length_append, List.length_cons] at ih ⊢
            omega
      exact this os
  | z :: w :: rs, acc, fuel + 1, v, _, hf, hr => by
    have ih := parseRamification_print os hos hz (w :: rs) (acc ++ [z]) fuel (some (z : Int)) (by simp)
      (by simpa using hf) fun x hx => hr x (by simp only [List.mem_cons] at hx ⊢; tauto)
    have hz' := hr z (by simp)
    have h := IStream.readInt_show (z := (z : Int)) (by omega) (by omega) []
      (',' :: (showList ((w :: rs).map showNat) ++ ';' :: showList (os.map showInt))) (by simp)
      (by simp [isDigit]) v
    rw [IStream.showInt_ofNat] at h
    simp only [List.nil_append] at h
    unfold parseRamification
    rw [List.map_cons, List.map_cons, showList_cons_cons, ← List.map_cons, List.append_assoc, List.cons_append, h]
    simp only [IStream.peek, IStream.good, IStream.ignore, List.isEmpty_cons, Bool.not_false, Bool.and_self,
      Bool.not_true, Bool.false_eq_true, if_false]
    rw [toUnsigned_ofNat (by omega), ih]
    simp

theorem length_showList (rs : List Nat) : rs.length ≤ (showList (rs.map showNat)).length + 1 := by
  induction rs with
  | nil => simp
  | cons z os ih =>
    cases os with
    | nil => simp
    | cons w os =>
      rw [List.map_cons, List.map_cons, showList_cons_cons, ← List.map_cons]
      simp only [List.length_append, List.length_cons] at ih ⊢
      omega

/-- A key is read back as it was printed. -/
theorem parse_print {k : Key} (h : k.Fits) : parse k.print = .ok k := by
  unfold parse print IStream.ofList
  rw [parseRamification_print k.offsets h.offsets_ne h.offsets_int k.ramification [] _ _ h.ramification_ne ?_
    h.ramification_lt]
  · rfl
  · have := length_showList k.ramification
    simp only [List.length_append, List.length_cons]
    omega

theorem mem_showList {l : List (List Char)} {c : Char} (h : c ∈ showList l) : c = ',' ∨ ∃ a ∈ l, c ∈ a := by
  cases l with
  | nil => exact absurd h (by simp [showList])
  | cons a l =>
    simp only [showList, List.mem_append, List.mem_flatMap, List.mem_cons] at h
    rcases h with h | ⟨b, hb, rfl | h⟩
    · exact Or.inr ⟨a, by simp, h⟩
    · exact Or.inl rfl
    · exact Or.inr ⟨b, by simp [hb], h⟩

/-- The characters of printed keys. -/
theorem print_char {k : Key} {c : Char} (h : c ∈ k.print) : c = ',' ∨ c = ';' ∨ c = '-' ∨ isDigit c = true := by
  unfold print at h
  rcases List.mem_append.1 h with h | h
  · rcases mem_showList h with h | ⟨a, ha, h⟩
    · exact Or.inl h
    · obtain ⟨n, _, rfl⟩ := List.mem_map.1 ha
      exact Or.inr (Or.inr (Or.inr (showNat_digit n c h)))
  · rcases List.mem_cons.1 h with h | h
    · exact Or.inr (Or.inl h)
    rcases mem_showList h with h | ⟨a, ha, h⟩
    · exact Or.inl h
    · obtain ⟨n, _, rfl⟩ := List.mem_map.1 ha
      rcases showInt_char h with h | h
      · exact Or.inr (Or.inr (Or.inl h))
      · exact Or.inr (Or.inr (Or.inr h))

theorem print_char_ne {k : Key} {c : Char} (h : c ∈ k.print) : c ≠ ':' ∧ c ≠ '\n' := by
  rcases print_char h with rfl | rfl | rfl | h
  · decide
  · decide
  · decide
  · exact ⟨ne_of_isDigit h _ (by decide), ne_of_isDigit h _ (by decide)⟩

end Key

/-! ### Stores -/

namespace Store

/-- A printed line is read as its entry. -/
theorem extractLine_print (m : StoreMap) {k : Key} (h : k.Fits) (z : Int) :
    extractLine m (k.print ++ ':' :: showInt z) = addEntry m k z := by
  unfold extractLine IStream.ofList
  rw [IStream.getline_delim fun c hc => (Key.print_char_ne hc).1]
  simp only
  rw [IStream.getline_end]
  · rw [Key.parse_print h, fmpzOfString_show]
    rfl
  · intro c hc
    rcases showInt_char hc with rfl | h
    · decide
    · exact ne_of_isDigit h _ (by decide)

theorem extractLoop_print : ∀ (l : List (Key × Int)) (fuel : Nat) (old : List Char) (m : StoreMap),
    l.length < fuel → (∀ e ∈ l, e.1.Fits) →
    extractLoop fuel ⟨print l, false, false⟩ old m = l.foldlM (fun m e => addEntry m e.1 e.2) m
  | _, 0, _, _, hf, _ => absurd hf (by omega)
  | [], fuel + 1, old, m, _, _ => by
    simp [extractLoop, print, IStream.getline, IStream.good]
  | e :: l, fuel + 1, old, m, hf, h => by
    have hp : print (e :: l) = (e.1.print ++ ':' :: showInt e.2) ++ '\n' :: print l := by
      simp [print]
    unfold extractLoop
    rw [hp, IStream.getline_delim]
    · simp only [Bool.false_eq_true, if_false, List.foldlM_cons]
      rw [extractLine_print m (h e (by simp))]
      cases addEntry m e.1 e.2 with
      | ok m' =>
        simp only [Res.bind_ok]
        exact extractLoop_print l fuel _ m' (by simpa using hf) fun e he => h e (by simp [he])
      | ub => rfl
      | abort => rfl
      | diverge => rfl
    · intro c hc
      rcases List.mem_append.1 hc with hc | hc
      · exact (Key.print_char_ne hc).2
      rcases List.mem_cons.1 hc with rfl | hc
      · decide
      rcases showInt_char hc with rfl | h
      · decide
      · exact ne_of_isDigit h _ (by decide)

theorem length_print (l : List (Key × Int)) : l.length ≤ (print l).length := by
  induction l with
  | nil => simp
  | cons e l ih =>
    simp only [print, List.flatMap_cons, List.length_append, List.length_cons] at ih ⊢
    omega

/-- Reading a printed store adds its entries one by one. -/
theorem extract_print (m : StoreMap) {l : List (Key × Int)} (h : ∀ e ∈ l, e.1.Fits) :
    extract m (IStream.ofList (print l)) = l.foldlM (fun m e => addEntry m e.1 e.2) m := by
  unfold extract IStream.ofList
  exact extractLoop_print l _ _ _ (Nat.lt_succ_of_le (length_print l)) h

end Store

/-! ### Records -/

namespace Record

/-- Reading the end of a line. -/
theorem readInt_blank (sp : List Char) (hsp : ∀ c ∈ sp, isSpace c = true) (v : Option Int) :
    (⟨sp, false, false⟩ : IStream).readInt v = (⟨[], true, true⟩, v) := by
  have hd : sp.dropWhile isSpace = [] := by
    have := List.dropWhile_append_of_pos (l₂ := []) hsp
    simpa using this
  unfold IStream.readInt
  simp only [IStream.good, Bool.not_false, Bool.and_self, Bool.not_true, Bool.false_eq_true, if_false, hd]

theorem readInt_fail (s : IStream) (h : s.fail = true) (v : Option Int) : (s.readInt v).1.fail = true := by
  unfold IStream.readInt
  rw [if_pos (by simp [IStream.good, h])]

/-- The numbers of a printed block, after white space left from the number before. -/
theorem readBlockLoop_print : ∀ (b : Block) (fuel : Nat) (sp : List Char) (v w : Option Int) (acc : Block),
    b.length < fuel → (∀ c ∈ sp, isSpace c = true) → (∀ x ∈ b, x.1 < 2147483648 ∧ x.2 < 2147483648) →
    readBlockLoop fuel ⟨sp ++ printBlock b, false, false⟩ v w acc = .ok (acc ++ b)
  | _, 0, _, _, _, _, hf, _, _ => absurd hf (by omega)
  | [], fuel + 1, sp, v, w, acc, _, hsp, _ => by
    unfold readBlockLoop
    simp only [printBlock, List.flatMap_nil, List.append_nil]
    rw [readInt_blank sp hsp]
    simp only
    rw [if_pos (readInt_fail _ rfl _)]
  | x :: b, fuel + 1, sp, v, w, acc, hf, hsp, hb => by
    have hx := hb x (by simp)
    have hp : printBlock (x :: b) = showNat x.1 ++ (' ' :: (showNat x.2 ++ (' ' :: printBlock b))) := by
      simp [printBlock]
    have h1 := IStream.readInt_show (z := (x.1 : Int)) (by omega) (by omega) sp
      (' ' :: (showNat x.2 ++ (' ' :: printBlock b))) hsp (by simp [isDigit]) v
    have h2 := IStream.readInt_show (z := (x.2 : Int)) (by omega) (by omega) [' ']
      (' ' :: printBlock b) (by simp [isSpace]) (by simp [isDigit]) w
    rw [IStream.showInt_ofNat] at h1 h2
    simp only [List.isEmpty_cons] at h1 h2
    unfold readBlockLoop
    rw [hp]
    simp only
    rw [h1]
    simp only
    rw [show ' ' :: (showNat x.2 ++ (' ' :: printBlock b)) = [' '] ++ (showNat x.2 ++ (' ' :: printBlock b)) from
      rfl, h2]
    simp only [Bool.false_eq_true, if_false]
    have ih := readBlockLoop_print b fuel [' '] (some (x.1 : Int)) (some (x.2 : Int)) (acc ++ [x])
      (by simpa using hf) (by simp [isSpace]) fun y hy => hb y (by simp [hy])
    rw [Key.toUnsigned_ofNat (by omega), Key.toUnsigned_ofNat (by omega)]
    rw [List.append_assoc] at ih
    exact ih

theorem printBlock_char {b : Block} {c : Char} (h : c ∈ printBlock b) : c = ' ' ∨ isDigit c = true := by
  obtain ⟨x, _, h⟩ := List.mem_flatMap.1 h
  rcases List.mem_append.1 h with h | h
  · exact Or.inr (showNat_digit _ c h)
  rcases List.mem_cons.1 h with h | h
  · exact Or.inl h
  rcases List.mem_append.1 h with h | h
  · exact Or.inr (showNat_digit _ c h)
  · exact Or.inl (List.mem_singleton.1 h)

theorem length_printBlock (b : Block) : b.length ≤ (printBlock b).length := by
  induction b with
  | nil => simp
  | cons x b ih =>
    simp only [printBlock, List.flatMap_cons, List.length_append, List.length_cons] at ih ⊢
    omega

/-- A block whose bounds fit in `int`. -/
def Fits (b : Block) : Prop := ∀ x ∈ b, x.1 < 2147483648 ∧ x.2 < 2147483648

theorem extractBlock_print {b : Block} (hb : Fits b) (t : List Char) :
    extractBlock ⟨printBlock b ++ '\n' :: t, false, false⟩ = .ok (⟨t, false, false⟩, b) := by
  unfold extractBlock
  rw [IStream.getline_delim]
  · simp only [IStream.ofList]
    have := readBlockLoop_print b ((printBlock b).length + 1) [] none none []
      (Nat.lt_succ_of_le (length_printBlock b)) (by simp) hb
    simp only [List.nil_append] at this
    rw [this]
    rfl
  · intro c hc
    rcases printBlock_char hc with rfl | h
    · decide
    · exact ne_of_isDigit h _ (by decide)

/-- At the end of the file, a last empty block is read. -/
theorem extractLoop_print : ∀ (l : List Block) (fuel : Nat) (r : OSet Block), l.length + 1 < fuel →
    (∀ b ∈ l, Fits b) →
    extractLoop fuel ⟨print l, false, false⟩ r = .ok (OSet.insert (l.foldl OSet.insert r) [])
  | _, 0, _, hf, _ => absurd hf (by omega)
  | [], 1, _, hf, _ => absurd hf (by simp)
  | [], fuel + 2, r, _, _ => by
    have h : extractBlock ⟨[], false, false⟩ = .ok (⟨[], true, true⟩, []) := by
      decide
    unfold extractLoop
    simp only [Bool.false_eq_true, if_false, print, List.flatMap_nil]
    rw [h]
    unfold extractLoop
    simp
  | b :: l, fuel + 1, r, hf, h => by
    have hp : print (b :: l) = printBlock b ++ '\n' :: print l := by simp [print]
    unfold extractLoop
    rw [hp, extractBlock_print (h b (by simp))]
    simp only [Bool.false_eq_true, if_false, Res.bind_ok, List.foldl_cons]
    exact extractLoop_print l fuel _ (by simp only [List.length_cons] at hf; omega) fun b hb => h b (by simp [hb])

theorem length_print (l : List Block) : l.length ≤ (print l).length := by
  induction l with
  | nil => simp
  | cons e l ih =>
    simp only [print, List.flatMap_cons, List.length_append, List.length_cons] at ih ⊢
    omega

/-- Reading a printed record: nothing for an empty record, otherwise the blocks and the empty block. -/
theorem extract_print (r : OSet Block) {l : List Block} (h : ∀ b ∈ l, Fits b) :
    extract r (IStream.ofList (print l)) =
      .ok (if l = [] then r else OSet.insert (l.foldl OSet.insert r) []) := by
  unfold extract IStream.ofList
  cases l with
  | nil => rfl
  | cons b l =>
    have hne : ∃ c t, print (b :: l) = c :: t := by
      cases hp : print (b :: l) with
      | nil => exact absurd hp (by simp [print])
      | cons c t => exact ⟨c, t, rfl⟩
    obtain ⟨c, t, hp⟩ := hne
    have hpeek : (⟨print (b :: l), false, false⟩ : IStream).peek.1 = ⟨print (b :: l), false, false⟩ := by
      rw [hp]; rfl
    rw [hpeek, extractLoop_print _ _ _ (by have := length_print (b :: l); simp only at this ⊢; omega) h]
    rw [if_neg (by simp)]

theorem mem_foldl_insert (l : List Block) (r : OSet Block) (b : Block) :
    b ∈ l.foldl OSet.insert r ↔ b ∈ r ∨ b ∈ l := by
  induction l generalizing r with
  | nil => simp
  | cons a l ih =>
    rw [List.foldl_cons, ih, OSet.mem_insert, List.mem_cons]
    tauto

theorem sorted_foldl_insert (l : List Block) {r : OSet Block} (h : OSet.Sorted r) :
    OSet.Sorted (l.foldl OSet.insert r) := by
  induction l generalizing r with
  | nil => exact h
  | cons a l ih => exact ih (OSet.sorted_insert h a)

end Record
end Hycu
