import Verif.Props.ChannelCounts

/-! A history for C107 in single precision. -/

open Zones.Spec Zones.Model Zones.Proofs Zones.Proofs.R

namespace Zones.Props

noncomputable local instance channelsArith : Arith := single

/-- In single precision: the hypotheses of `C107_rounded`. -/
example : ∃ v, (∃ u τ, Accurate u τ 9) ∧ (∃ ε, Approx singleFFT ε) ∧ AccurateGains (.rounded round24) (2⁻¹ ^ 24) ∧
    BuiltWithinR singleFFT 2 9 (fun _ => exampleIR) (fun _ => 64) (fun _ => exampleSpec) (fun _ => 18) (fun _ => 64) (fun _ => [⟨1, 9⟩, ⟨4, 18⟩]) (changingHistory v) ∧
    ChangesChannels 2 4 (fun _ => True) none (changingHistory v) ∧ WholeRates (changingHistory v) := by
  obtain ⟨v, e, _⟩ := C71_rounding_error_bounded (single_accurate 9) singleFFT_approx exampleUsable example_block example_scheme
    example_points junk (fun _ _ => 7)
  exact ⟨v, ⟨_, _, single_accurate 9⟩, ⟨_, singleFFT_approx⟩, accurateGains_single, fun b hb g hg => ⟨exampleUsable, example_cut, _, _, (by rw [changing_held v b hb g hg]; exact e)⟩,
    changing_changes v trivial, changing_rates v⟩

end Zones.Props
