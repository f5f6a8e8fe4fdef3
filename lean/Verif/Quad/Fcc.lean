import Verif.Quad.Ccf

/-!
# `fclencurt.m` and `fcgltran.m`

Simplifications: real (complex) arithmetic for `double`; `ifft` and `fft` are the discrete transforms they compute; a column is a function of the index from 0; the columns are real, and of the transform of a symmetric real column only the real part is kept (the imaginary part is zero).  At least two points.
-/

namespace Verif.Quad

open Real

noncomputable section

/-- `[c(1:N1);c(N:-1:2)]`, `expt/integrate/fclencurt.m:23`, and `[A(1:N,:);A(N-1:-1:2,:)]`, `expt/integrate/fcgltran.m:19`: a column of `N+1` entries continued to `2N`. -/
def mirror (N : ℕ) (c : ℕ → ℝ) (j : ℕ) : ℝ := if j ≤ N then c j else c (2 * N - j)

/-- `c(:,1)`, `expt/integrate/fclencurt.m:21-22`: `c(1:2:N1,1)=(2./[1 1-(2:2:N).^2 ])'`. -/
def fcC1 (j : ℕ) : ℝ := if j % 2 = 1 then 0 else if j = 0 then 2 / 1 else 2 / (1 - (j : ℝ) ^ 2)

/-- `c(:,2)`, `expt/integrate/fclencurt.m:21-22`: `c(2,2)=1`. -/
def fcC2 (j : ℕ) : ℝ := if j = 1 then 1 else 0

/-- A column of `f`, `expt/integrate/fclencurt.m:23`. -/
def fcF (N : ℕ) (c : ℕ → ℝ) (k : ℕ) : ℝ := (ifft (2 * N) (fun j => (mirror N c j : ℂ)) k).re

/-- `w`, `expt/integrate/fclencurt.m:24`, for `N1 = N+1`. -/
def fcW (N : ℕ) (a b : ℝ) (k : ℕ) : ℝ :=
  (b - a) * (if k = 0 ∨ k = N then fcF N fcC1 k else 2 * fcF N fcC1 k) / 2

/-- `x`, `expt/integrate/fclencurt.m:25`. -/
def fcX (N : ℕ) (a b : ℝ) (k : ℕ) : ℝ := 0.5 * ((b + a) + N * (b - a) * fcF N fcC2 k)

/-- `fft(v)` of an array of `n` entries. -/
def fft (n : ℕ) (v : ℕ → ℂ) (k : ℕ) : ℂ :=
  ∑ j ∈ Finset.range n, v j * Complex.exp (-(2 * π * Complex.I * j * k / n))

/-- `fcgltran(A,1)`, `expt/integrate/fcgltran.m:18-20`, nodal to spectral, for `M+1` rows. -/
def toSpectral (M : ℕ) (A : ℕ → ℝ) (k : ℕ) : ℝ :=
  if k = 0 ∨ k = M then fcF M A k else 2 * fcF M A k

/-- `fcgltran(A,0)`, `expt/integrate/fcgltran.m:22-23`, spectral to nodal: all entries after the first are halved, the last of `A` too. -/
def toNodal (M : ℕ) (A : ℕ → ℝ) (k : ℕ) : ℝ :=
  (fft (2 * M) (fun j => ((if j = 0 then A 0 else mirror M A j / 2 : ℝ) : ℂ)) k).re

end

end Verif.Quad
