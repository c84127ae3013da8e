/-
The Legendre and Hermite families over the real numbers (c3/lib_funcs/polynomials.c, hpoly.c).
-/
import Verif.Poly.Spec
import Mathlib.Analysis.Real.Sqrt

namespace C3.Poly
open Real

/-- polynomials.c:1160-1192 `init_leg_poly` with `lega_seq_norm`, `legc_seq_norm` (696-709) and `legortho` (1143). For orders up to 200
the code reads tables of these values (288-694), rounded to double precision; the tables are not part of this definition. -/
noncomputable def legFam : Fam ℝ where
  pt := .leg
  an := fun n => √(4 * (n * n) - 1) / n
  bn := fun _ => 0
  cn := fun n => -(√(2 * n + 1) * (n - 1)) / n / √(2 * n - 3)
  lower := -1
  upper := 1
  c0 := 1
  l0 := 0
  l1 := 1 * √3
  norm := fun _ => 1

/-- hpoly.c:83-107 `init_hermite_poly` with `an`, `cn` (62-63), `hermortho` (66); `big` is `DBL_MAX`. -/
noncomputable def hermFam (big : ℝ) : Fam ℝ where
  pt := .herm
  an := fun n => 1 / √n
  bn := fun _ => 0
  cn := fun n => -√((n - 1) / n)
  lower := -big
  upper := big
  c0 := 1
  l0 := 0
  l1 := 1
  norm := fun _ => 1

end C3.Poly
