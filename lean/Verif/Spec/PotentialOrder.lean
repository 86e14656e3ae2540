import Verif.Model.Potentials

/-!
# Deeper wells (C145)
-/

namespace QS

open Potentials

/-- `Deeper P P'`: the arguments of the potential object `P'` differ from those of `P` so that it is nowhere above `P`. -/
inductive Deeper : Potential → Potential → Prop
  /-- Lower frequencies. -/
  | ho {w w' : ℝ} (h : |w'| ≤ |w|) : Deeper (.ho w) (.ho w')
  | dw {w w' l : ℝ} (h : |w'| ≤ |w|) : Deeper (.dw w l) (.dw w' l)
  /-- Smaller coefficients. -/
  | symmetricDW {a b c a' b' c' : ℝ} (ha : a' ≤ a) (hb : b' ≤ b) (hc : c' ≤ c) :
    Deeper (.symmetricDW a b c) (.symmetricDW a' b' c')
  | asymmetricDW {a b c a' c' : ℝ} (ha : a' ≤ a) (hc : c' ≤ c) : Deeper (.asymmetricDW a b c) (.asymmetricDW a' b c')
  /-- Larger weights. -/
  | gaussian {w w' c d : ℝ} (h : w ≤ w') : Deeper (.gaussian w c d) (.gaussian w' c d)
  /-- Broader wells. -/
  | broader {w c d d' : ℝ} (h0 : 0 ≤ w) (hd : d ≠ 0) (h : |d| ≤ |d'|) : Deeper (.gaussian w c d) (.gaussian w c d')
  /-- A hard wall is taken away or moves out. -/
  | noWall {w c d xw : ℝ} : Deeper (.gaussianHardWall w c d xw) (.gaussian w c d)
  | wall {w w' c d xw xw' : ℝ} (hw : w ≤ w') (h : xw ≤ xw') :
    Deeper (.gaussianHardWall w c d xw) (.gaussianHardWall w' c d xw')
  /-- A larger charge. -/
  | charge {Z Z' c : ℝ} (h : Z ≤ Z') : Deeper (.atomic Z c) (.atomic Z' c)
  /-- Less softening. -/
  | softening {Z c c' : ℝ} (hZ : 0 ≤ Z) (hc : 0 < c') (h : c' ≤ c) : Deeper (.atomic Z c) (.atomic Z c')

end QS
