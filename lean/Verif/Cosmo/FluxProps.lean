import Verif.Cosmo.NewtonLemmas

/-!
# Property C159, continued: `flux2z` returns; and the modulus without the Hubble constant (C157)
-/

set_option linter.unusedSectionVars false

noncomputable section

namespace Verif.Cosmo

open Set

/-- C157: the modulus without the Hubble constant differs by five times the logarithm of the Hubble distance in units of 10 pc. -/
theorem C157_modulus (Q : Quad) (o : Obj) (hh : 0 < o.h) (w : World) (z : ℝ) (hd : 0 < (o.ldist Q z w).2) :
    (o.mu Q z w).2 = muNohF Q (setFrw o.h o.OM o.OL w).frw z + 5 * Real.logb 10 (hubbleDist o * 100000) := by
  have e1 : (o.ldist Q z w).2 = 299792458 / o.h * curve (setFrw o.h o.OM o.OL w).frw z (Q (ddIg (setFrw o.h o.OM o.OL w).frw) 0 z) / 100000 := rfl
  rw [e1] at hd
  have hc : 0 < 299792458 / o.h := by positivity
  have hcurve : 0 < curve (setFrw o.h o.OM o.OL w).frw z (Q (ddIg (setFrw o.h o.OM o.OL w).frw) 0 z) := by
    by_contra hneg
    have := mul_nonpos_of_nonneg_of_nonpos hc.le (not_lt.1 hneg)
    linarith [div_nonpos_of_nonpos_of_nonneg this (by norm_num : (0 : ℝ) ≤ 100000)]
  have e2 : hubbleDist o * 100000 = 299792458 / o.h := by rw [hubbleDist]; field_simp
  rw [e2]
  show 5 * Real.logb 10 (299792458 / o.h * curve _ z _) = 5 * Real.logb 10 (curve _ z _) + _
  rw [Real.logb_mul hc.ne' hcurve.ne']
  ring

/-- C159: in a flat universe of matter and vacuum, with exact quadrature and without the rounding of the derivative to single precision, `flux2z` returns for every luminosity and flux, if the last call that used a cosmology used the same one.
Missing: curved universes and other cosmologies used last (`C159_violated_curved`,
`C159_violated_stale`). -/
theorem C159_returns_partial (Q : Quad) (hQ : ∀ f a b, Q f a b = ∫ x in a..b, f x) (s : Std) (l F : ℝ) (w : World) (o : Obj) (hw : w.frw = (setFrw o.h o.OM o.OL w).frw)
    (hoM : o.OM = s.cos.OM) (hoL : o.OL = s.cos.OL) (hM : 0 ≤ s.cos.OM) (hL : 0 ≤ s.cos.OL) (hflat : s.cos.OM + s.cos.OL = 1) (hl : s.lum = some l) (hF : 0 < l * s.ffid / F) :
    ∃ N, ∀ fuel, N ≤ fuel → ∃ z, (s.flux2z Q id fuel F w).2 = .value z := by
  rw [← hoM] at hM hflat
  rw [← hoL] at hL hflat
  have hq : ∀ t, 0 ≤ t → 0 < hubbleSq o t := by
    intro t ht
    have h3 : (1 : ℝ) ≤ (1 + t) ^ 3 := one_le_pow₀ (by linarith)
    have : hubbleSq o t = o.OM * (1 + t) ^ 3 + o.OL := by
      rw [hubbleSq, show 1 - o.OM - o.OL = 0 by linarith]; ring
    rw [this]
    nlinarith
  have hI : coordInt Q w.frw = comoving o := by
    funext z
    rw [coordInt, hQ, hw, ddIg_eq]; rfl
  have hE : eHub w.frw = fun z => √(hubbleSq o z) := by
    funext z
    rw [hw, eHub, ← ig_eq o w z]; rfl
  have h0 : comoving o 0 = 0 := by simp [comoving]
  have hg : ∀ z, 0 ≤ z → HasDerivAt (fun z => (1 + z) * comoving o z) (lslope o z) z := by
    intro z hz
    have h : HasDerivAt (fun z : ℝ => 1 + z) 1 z := by simpa using (hasDerivAt_id z).const_add 1
    exact (h.mul (comoving_deriv hz fun t ht => hq t ht.1)).congr_deriv (by rw [lslope]; ring)
  have h1 : 1 ≤ lslope o 0 := by
    rw [lslope, h0, hubbleSq, show o.OM * (1 + 0) ^ 3 + (1 - o.OM - o.OL) * (1 + 0) ^ 2 + o.OL = 1 by ring]
    simp
  obtain ⟨N, hN⟩ := newton_returns (I := comoving o) (E := fun z => √(hubbleSq o z)) (x := √(l * s.ffid / F)) hg (lslope_mono hM hL hflat.le hq) h1 h0
    (fun z _ => rfl) (Real.sqrt_pos.2 hF) (start_nonneg (Real.sqrt_nonneg _))
  refine ⟨N, fun fuel hf => ?_⟩
  obtain ⟨r, hr⟩ := hN fuel hf
  refine ⟨r, ?_⟩
  have e : flux2zF Q id fuel { { w with ffid := s.ffid } with lam := l } F = some r := by
    show newton (coordInt Q w.frw) (eHub w.frw) id _ fuel _ = some r
    rw [hI, hE]; exact hr
  simp only [Std.flux2z, hl, e]

/-- The hypotheses are met. -/
example (Q : Quad) (hQ : ∀ f a b, Q f a b = ∫ x in a..b, f x) (w : World) :
    ∃ N, ∀ fuel, N ≤ fuel → ∃ z, ((⟨⟨7 / 10, 3 / 10, 7 / 10⟩, 1, some 1⟩ : Std).flux2z Q id fuel (1 / 4) (setFrw (7 / 10) (3 / 10) (7 / 10) w)).2 = .value z :=
  C159_returns_partial Q hQ _ 1 (1 / 4) _ ⟨7 / 10, 3 / 10, 7 / 10⟩ rfl rfl rfl (by norm_num) (by norm_num) (by norm_num) rfl (by norm_num)

end Verif.Cosmo
