import Verif.Spec.Directory

/-!
Saves whose writes fail: files that could not be created, and files that were cut off because the disk was full or the
process died.
-/

namespace Hycu

/-- The directories that are left behind by the given writes if each of them may fail: a file is not created at all,
or it has some part of its content, which may be all of it. -/
inductive Dir.Faulty : List (List Char × List Char) → Dir → Dir → Prop
  | nil (d : Dir) : Faulty [] d d
  | lost (n c : List Char) (ws : List (List Char × List Char)) (d d' : Dir) (h : Faulty ws d d') :
      Faulty ((n, c) :: ws) d d'
  | cut (n c part : List Char) (ws : List (List Char × List Char)) (d d' : Dir) (hp : part <+: c)
      (h : Faulty ws (d.write n part) d') : Faulty ((n, c) :: ws) d d'

/-- The number `y'` is what is left of the decimal number `y` if `j` digits are cut off at its end, but not all. -/
def CutNumber (y y' : Nat) : Prop := ∃ j, y' = y / 10 ^ j ∧ (j = 0 ∨ 10 ^ j ≤ y)

/-- The block `b'` is what is left of the line of the block `b` if it is cut off somewhere: some of the pairs, and
perhaps one more with a shortened second number. -/
inductive CutBlock (b : Block) : Block → Prop
  | pairs (l rest : Block) (h : b = l ++ rest) : CutBlock b l
  | number (l rest : Block) (x y y' : Nat) (h : b = l ++ (x, y) :: rest) (hy : CutNumber y y') :
      CutBlock b (l ++ [(x, y')])

end Hycu
