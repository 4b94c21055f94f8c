import Verif.Spec.Tmat

/-!
# Energies of photons (specification)
-/

namespace Khepri

/-- The Planck constant, in J s (exact by definition of the SI). -/
noncomputable def planck : ℝ := 6.62607015e-34

/-- The elementary charge, in C (exact by definition of the SI). -/
noncomputable def elementaryCharge : ℝ := 1.602176634e-19

/-- The energy, in electronvolts, of a photon of light of a wavelength given in metres. -/
noncomputable def photonEnergy (wl : ℝ) : ℝ := planck * lightSpeed / wl / elementaryCharge

end Khepri
