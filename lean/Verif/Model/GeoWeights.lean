import Verif.Nd
import Mathlib.Analysis.SpecialFunctions.Trigonometric.Basic
/-
  Model of /repo/pyspod/utils/weights.py:8-85 (geo_trapz_2D, geo_trapz_3D), exact real arithmetic.
-/
namespace Verif.Geo
open Verif Real

/-- weights.py:23 `np.linspace(-90, 90, x1_dim)` -/
noncomputable def lat (n1 : Nat) : List ℝ := (List.range n1).map fun (i : Nat) => -90 + (i : ℝ) * (180 / ((n1 : ℝ) - 1))

/-- weights.py:24-25 `np.linspace(0, 360, x2_dim+1)[0:-1]` -/
noncomputable def lon (n2 : Nat) : List ℝ := (List.range n2).map fun (j : Nat) => (j : ℝ) * (360 / (n2 : ℝ))

/-- weights.py:26-27 `/ 360 * 2 * np.pi` -/
noncomputable def toRad (l : List ℝ) : List ℝ := l.map fun x => x / 360 * 2 * π

/-- `np.diff` -/
noncomputable def diff (l : List ℝ) : List ℝ := List.zipWith (fun a b => b - a) l l.tail

/-- weights.py:29-31: `diff_lat = np.diff(lat_rad)[0:-1]`,
    `d_lat = hstack([diff_lat[1]/2, diff_lat, diff_lat[-1]/2])`; `none` = IndexError. -/
noncomputable def dLat (n1 : Nat) : Option (List ℝ) :=
  let dl := (diff (toRad (lat n1))).dropLast
  match dl[1]?, dl.getLast? with
  | some a, some b => some ([a / 2] ++ dl ++ [b / 2])
  | _, _ => none

/-- weights.py:33-34: `d_lon = hstack([lon_rad[0]/2, np.diff(lon_rad)])`; `none` = IndexError. -/
noncomputable def dLon (n2 : Nat) : Option (List ℝ) :=
  let lr := toRad (lon n2)
  match lr[0]? with
  | some a => some ([a / 2] ++ diff lr)
  | none => none

/-- weights.py:36-40: `dA[i,j] = |R**2 * cos(lat_rad[i]) * d_lon[j] * d_lat[i]|`. -/
noncomputable def dA (R : ℝ) (n1 n2 : Nat) : Option (Nat → Nat → ℝ) :=
  match dLat n1, dLon n2 with
  | some a, some b => some fun i j => |R ^ 2 * cos ((toRad (lat n1)).getD i 0) * b.getD j 0 * a.getD i 0|
  | _, _ => none

/-- weights.py:41-44: `np.tile(dA, [n_vars,1,1])`, `einsum('ijk->jki')`: array of shape `(x1, x2, n_vars)`. -/
noncomputable def geo2D (R : ℝ) (n1 n2 nv : Nat) : Option (Arr ℝ) :=
  (dA R n1 n2).map fun f => ⟨[n1, n2, nv], fun idx => f (idx.getD 0 0) (idx.getD 1 0)⟩

/-- weights.py:80-84: tile over `x3`, transpose to `(x1, x2, x3)`, then `np.tile(dA, [n_vars,1,1])`: array of
    shape `(n_vars*x1, x2, x3)`. -/
noncomputable def geo3D (R : ℝ) (n1 n2 n3 nv : Nat) : Option (Arr ℝ) :=
  (dA R n1 n2).map fun f => ⟨[nv * n1, n2, n3], fun idx => f (idx.getD 0 0 % n1) (idx.getD 1 0)⟩

/-- spod/base.py:480-487 and pod/base.py:287-294: `np.reshape(weights, [size, 1])`: the weight applied to the flat
    position `p` of the data. -/
noncomputable def flatWeight (w : Arr ℝ) (p : Nat) : ℝ := w.at' (unravel w.shape p)

end Verif.Geo
