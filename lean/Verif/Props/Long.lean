import Verif.Props.Convolver
import Verif.Props.Partition
import Verif.Proofs.NUPCLong
import Verif.Props.Ints

/-!
# C98: impulse responses of any length up to `2^30` samples

Beyond `2^24` samples the lengths no longer fit in the 24 bit significand of the single precision numbers the partitions
are counted with.
-/

open Finset Zones.Spec Zones.Model Zones.Proofs

namespace Zones.Props

/-- `Usable`, for impulse responses of up to `2^30` samples (6.7 hours at 44.1 kHz). -/
structure UsableLong (ir : Buf) (maxB : ℕ) (spec : ConvolverSpec) (N : ℕ) : Prop where
  nonempty : 0 < ir.n
  size : ir.n ≤ 2^30
  inputs : ValidRouting spec.inputRouting ir.ch N
  outputs : ValidRouting spec.outputRouting ir.ch N
  blockSize : maxB ≤ 2^30 ∨ ∃ b, spec.internalBlockSize = some b ∧ b ≠ 0 ∧ b ≤ 2^30

/-- all internal block sizes have a table -/
theorem tabulated {b : ℕ} (h5 : 5 ≤ b) (h11 : b ≤ 11) : ∃ T, kGarciaResults.lookup (2^b) = some T := by
  have h : ∀ b < 12, 5 ≤ b → (kGarciaResults.lookup (2^b)).isSome = true := by decide +kernel
  exact Option.isSome_iff_exists.mp (h b (by omega) h5)

/-- the invariant of the convolver of a long impulse response is that of the convolver of its first samples -/
theorem usable_create_long {F : RealFFT} (hF : Lawful F) {ir : Buf} {maxB N : ℕ} {spec : ConvolverSpec}
    (h : UsableLong ir maxB spec N) (hlong : 2^24 < ir.n) (g : Garbage) (r0 : ℕ → ℕ → ℝ) :
    ∃ B sch n0 as p m, internalBlockSize Convolver.po2Fuel maxB spec.internalBlockSize = some B ∧
      getPartitionScheme kGarciaResults B ir.n = some sch ∧ LongScheme B ir.n sch n0 as p m ∧
      (ir.n - heardLen B ir.n n0 as p m) * 2^24 ≤ ir.n ∧
      ∃ c, Convolver.create F ir maxB spec g r0 = some c ∧
        ∀ x, CInv (cut ir (heardLen B ir.n n0 as p m)) (channelAt spec.inputRouting) (channelAt spec.outputRouting) x 0 c := by
  obtain ⟨b, hb1, hb2, e1, _, _⟩ := internalBlockSize_eq (fuel := Convolver.po2Fuel) (by unfold Convolver.po2Fuel; omega)
    (requested_le h.blockSize)
  obtain ⟨T, hT⟩ := tabulated hb1 hb2
  have hB : 0 < 2^b := by positivity
  have hBm : 2^b ≤ 2048 := by
    calc 2^b ≤ 2^11 := Nat.pow_le_pow_right (by norm_num) hb2
      _ = 2048 := by norm_num
  obtain ⟨sch, n0, as, p, m, e2, hs⟩ := getPartitionScheme_long hT hB hBm hlong (by have := h.size; omega)
  obtain ⟨hn, hloss, s, n1, rest, e3, h1, h2⟩ := NInv.create_long_of hF (nch := ir.ch) hB hBm hlong h.size id g e2 hs
  refine ⟨2^b, sch, n0, as, p, m, e1, e2, hs, hloss, ?_⟩
  unfold Convolver.create
  rw [e1]
  simp only [Option.bind_eq_bind, Option.bind_some, e3]
  exact ⟨_, rfl, fun x => ⟨hB, rfl, rfl, rfl, fun c hc => (route_of_valid h.inputs c hc).1,
    fun c hc => (route_of_valid h.outputs c hc).1, n1, rest, h1 _, h2⟩⟩

/-- **C98.** Every impulse response of up to `2^30` samples is accepted, and the output is the exact zero-latency
convolution with its first `n` samples, where at most one sample in `2^24` is left out at the end (none up to `2^24 - 1`
samples; exactly `C01` there) - from the start, and again after any history of calls followed by a `Reset`. -/
theorem C98_long_responses {F : RealFFT} (hF : Lawful F) {ir : Buf} {maxB N : ℕ} {spec : ConvolverSpec}
    (h : UsableLong ir maxB spec N) (g : Garbage) (r0 : ℕ → ℕ → ℝ) :
    ∃ n ≤ ir.n, (ir.n - n) * 2^24 ≤ ir.n ∧ (ir.n ≤ 2^24 → n = ir.n) ∧
    ∃ c, Convolver.create F ir maxB spec g r0 = some c ∧
      ∀ ops : List Op, (∀ b, Op.process b ∈ ops → b.ch = N) →
        ∃ used, history (Convolver.process F) Convolver.reset c ops = some used ∧
        ∀ blocks : List Buf, (∀ b ∈ blocks, b.ch = N) → ∀ start, (start = c ∨ start = used.reset) →
          ∃ c' outs, feed (Convolver.process F) start blocks = some (c', outs) ∧ SameShape blocks outs ∧
            ∀ o < N, ∀ t < totalLen blocks, stream outs o t =
              ∑ k ∈ range ir.ch, if channelAt spec.outputRouting k = o
                then linConv n (ir.data k) (stream blocks (channelAt spec.inputRouting k)) t else 0 := by
  have main : ∀ n c, (∀ x, CInv (cut ir n) (channelAt spec.inputRouting) (channelAt spec.outputRouting) x 0 c) →
      ∀ ops : List Op, (∀ b, Op.process b ∈ ops → b.ch = N) →
        ∃ used, history (Convolver.process F) Convolver.reset c ops = some used ∧
        ∀ blocks : List Buf, (∀ b ∈ blocks, b.ch = N) → ∀ start, (start = c ∨ start = used.reset) →
          ∃ c' outs, feed (Convolver.process F) start blocks = some (c', outs) ∧ SameShape blocks outs ∧
            ∀ o < N, ∀ t < totalLen blocks, stream outs o t =
              ∑ k ∈ range ir.ch, if channelAt spec.outputRouting k = o
                then linConv n (ir.data k) (stream blocks (channelAt spec.inputRouting k)) t else 0 := by
    intro n c hc ops hops
    obtain ⟨used, e1, x, t, hu⟩ := history_routing hF (ir := cut ir n) h.inputs h.outputs hc ops hops
    refine ⟨used, e1, fun blocks hN start hs => ?_⟩
    rcases hs with rfl | rfl
    · exact feed_of_routing hF (ir := cut ir n) h.inputs h.outputs hc blocks hN
    · exact feed_of_routing hF (ir := cut ir n) h.inputs h.outputs (fun x' => hu.reset x') blocks hN
  rcases Nat.lt_or_ge (2^24) ir.n with hl | hl
  · obtain ⟨B, sch, n0, as, p, m, _, _, _, hloss, c, e, hc⟩ := usable_create_long hF h hl g r0
    exact ⟨_, min_le_left _ _, hloss, fun h' => absurd h' (by omega), c, e, main _ c hc⟩
  · obtain ⟨c, e, hc⟩ := usable_create hF (N := N) ⟨h.nonempty, hl, h.inputs, h.outputs, h.blockSize⟩ g r0
    exact ⟨ir.n, le_refl _, by simp, fun _ => rfl, c, e, main _ c hc⟩

/-- **C98, the `int` arithmetic.** For these lengths too, all the `int` arithmetic of building a convolver stays in the range
of a 32 bit `int` and gives the values of unbounded arithmetic, the ones the theorem above is about. -/
theorem C98_no_int_overflow {B L maxB : ℕ} {io : Option ℤ} (hB : internalBlockSize Convolver.po2Fuel maxB io = some B)
    (hr : maxB ≤ 2^30 ∨ ∃ b, io = some b ∧ b ≠ 0 ∧ b ≤ 2^30) (hL : 0 < L) (hL' : L ≤ 2^30) :
    Ints.scheme int32 kGarciaResults B L = getPartitionScheme kGarciaResults B L ∧
    ∃ u subs, Ints.construct int32 B L = some (u, subs) ∧ Ints.construct some B L = some (u, subs) ∧
      ∀ (F : RealFFT) (nch : ℕ) (ir : Buf) (g : Garbage) (s : NUPC), ir.n = L → NUPC.create F B nch ir g = some s →
        u.fftSize = s.upc.fftSize ∧ u.discard = s.upc.discard ∧ u.parts.length = s.upc.numFilters ∧
        subs.map (·.delay) = s.subs.map fun c => (c.delay : ℤ) := by
  obtain ⟨b, hb1, hb2, e1, _, _⟩ := internalBlockSize_eq (fuel := Convolver.po2Fuel) (by unfold Convolver.po2Fuel; omega)
    (requested_le hr)
  rw [e1] at hB
  obtain rfl : 2^b = B := Option.some.inj hB
  have hB : 0 < 2^b := by positivity
  have hBm : 2^b ≤ 2048 := by
    calc 2^b ≤ 2^11 := Nat.pow_le_pow_right (by norm_num) hb2
      _ = 2048 := by norm_num
  rcases Nat.lt_or_ge (2^24) L with hl | hl
  · obtain ⟨T, hT⟩ := tabulated hb1 hb2
    obtain ⟨⟨u, t⟩, c1, c2⟩ := ints_construct_long hT hB hBm hl hL'
    exact ⟨ints_scheme_long fits_int32 hT hB hBm hl hL', u, t, c1, c2,
      ints_values hB hL (ints_scheme_long fits_some hT hB hBm hl hL') c2⟩
  · exact C66_no_int_overflow hB (by omega) hL hl

/-- an impulse response of ten minutes at 96 kHz -/
example : ∃ u subs, Ints.construct int32 512 57600000 = some (u, subs) ∧ Ints.construct some 512 57600000 = some (u, subs) := by
  obtain ⟨_, u, subs, h1, h2, _⟩ := C98_no_int_overflow (B := 512) (L := 57600000) (maxB := 512) (io := none)
    (by decide +kernel) (by left; norm_num) (by norm_num) (by norm_num)
  exact ⟨u, subs, h1, h2⟩

/-! ## A concrete case, and the loss happens -/

/-- an impulse response of 16843265 samples (6 minutes and 22 seconds at 44.1 kHz) with a single echo at its very end -/
def lateEcho : Buf := ⟨1, 16843265, fun _ i => if i = 16843264 then 1 else 0⟩
def lateSpec : ConvolverSpec := { inputRouting := [0], outputRouting := [0] }

theorem lateUsable : UsableLong lateEcho 512 lateSpec 1 where
  nonempty := by norm_num [lateEcho]
  size := by norm_num [lateEcho]
  inputs := by
    intro c hc
    have : c < 1 := hc
    obtain rfl : c = 0 := by omega
    simp [lateSpec]
  outputs := by
    intro c hc
    have : c < 1 := hc
    obtain rfl : c = 0 := by omega
    simp [lateSpec]
  blockSize := by left; norm_num

theorem late_findNearest : findNearest garcia512 16843265 = some ⟨1048576, [⟨1, 16⟩, ⟨8, 14⟩, ⟨64, 30⟩]⟩ := by
  decide +kernel

theorem late_scheme : getPartitionScheme kGarciaResults 512 16843265 = some [⟨1, 17⟩, ⟨8, 14⟩, ⟨64, 513⟩] := by
  unfold getPartitionScheme
  rw [show kGarciaResults.lookup 512 = some garcia512 by rfl]
  simp only [Option.bind_eq_bind, late_findNearest, Option.bind_some]
  rw [if_pos (by norm_num)]
  unfold extendLayout
  simp only [List.getLast?_cons_cons, List.getLast?_singleton]
  rw [if_neg (by norm_num), ceil_fdiv_toNat (by norm_num) (by norm_num) (by norm_num)]
  simp [bumpFront]

/-- the echo is never heard: whatever is played, the output is silence -/
theorem C98_last_sample_lost {F : RealFFT} (hF : Lawful F) (g : Garbage) (r0 : ℕ → ℕ → ℝ) :
    ∃ c, Convolver.create F lateEcho 512 lateSpec g r0 = some c ∧
      ∀ blocks : List Buf, (∀ b ∈ blocks, b.ch = 1) →
        ∃ c' outs, feed (Convolver.process F) c blocks = some (c', outs) ∧ SameShape blocks outs ∧
          ∀ t < totalLen blocks, stream outs 0 t = 0 := by
  obtain ⟨B, sch, n0, as, p, m, eB, es, hs, _, c, e, hc⟩ := usable_create_long hF lateUsable (by norm_num [lateEcho]) g r0
  have hB : B = 512 := by
    have h0 : internalBlockSize Convolver.po2Fuel 512 lateSpec.internalBlockSize = some 512 := by decide +kernel
    rw [h0] at eB
    exact (Option.some.inj eB).symm
  subst hB
  have hsch : sch = [⟨1, 17⟩, ⟨8, 14⟩, ⟨64, 513⟩] := by
    have := late_scheme
    rw [show lateEcho.n = 16843265 from rfl, this] at es
    exact (Option.some.inj es).symm
  have heq := hs.eq
  rw [hsch] at heq
  obtain ⟨a, rfl⟩ : ∃ a, as = [a] := by
    have := congrArg List.length heq
    simp only [List.length_cons, List.length_append, List.length_nil] at this
    rcases as with _ | ⟨a, _ | ⟨a', as'⟩⟩
    · simp at this
    · exact ⟨a, rfl⟩
    · simp at this
  simp only [List.cons_append, List.nil_append, List.cons.injEq, Layout.mk.injEq, and_true, true_and] at heq
  obtain ⟨hn0, ha, hp, hm⟩ := heq
  subst hn0; subst ha; subst hm
  have hp6 : p = 6 := by
    have : (2:ℕ)^6 = 2^p := by rw [← hp]; norm_num
    exact (Nat.pow_right_injective (le_refl 2) this).symm
  subst hp6
  have hlen : heardLen 512 lateEcho.n 17 [⟨8, 14⟩] 6 513 = 16843264 := by
    unfold heardLen
    have h1 : (17 * 512 + totalSamples 512 [⟨8, 14⟩]) = 66048 := by norm_num [totalSamples, Layout.samples]
    have h2 : (2^6 * 512 : ℕ) = 2^15 := by norm_num
    have h3 : min (513 * 2^15) (lateEcho.n - 66048) = 2^24 + 1 := by norm_num [lateEcho]
    rw [h1, h2, h3, (C19_fails_beyond (k := 15) (by norm_num)).1]
    norm_num [lateEcho]
  rw [hlen] at hc
  refine ⟨c, e, fun blocks hN => ?_⟩
  obtain ⟨c', outs, e', sh, d⟩ := feed_of_routing hF (ir := cut lateEcho 16843264) (N := 1) lateUsable.inputs lateUsable.outputs hc blocks hN
  refine ⟨c', outs, e', sh, fun t ht => ?_⟩
  rw [d 0 (by norm_num) t ht]
  unfold routedConv
  refine Finset.sum_eq_zero fun k _ => ?_
  split
  · unfold linConv
    refine Finset.sum_eq_zero fun i hi => ?_
    have hi' : i < 16843264 := Finset.mem_range.mp hi
    have hz : (cut lateEcho 16843264).data k i = 0 := by
      show (if i = 16843264 then (1:ℝ) else 0) = 0
      rw [if_neg (by omega)]
    rw [hz]; simp
  · rfl

/-- what the same convolver would have to play to be exact: the input, 16843264 samples late -/
example : linConv lateEcho.n (lateEcho.data 0) (fun i => if i = 0 then 1 else 0) 16843264 = 1 := by
  unfold linConv lateEcho
  simp only
  rw [Finset.sum_eq_single 16843264]
  · norm_num
  · intro b _ hb
    rw [if_neg hb]; simp
  · intro h; exact absurd (Finset.mem_range.mpr (by norm_num)) h

example : ∃ n ≤ lateEcho.n, (lateEcho.n - n) * 2^24 ≤ lateEcho.n ∧ (lateEcho.n ≤ 2^24 → n = lateEcho.n) ∧
    ∃ c, Convolver.create referenceFFT lateEcho 512 lateSpec
      ⟨fun _ _ => 7, fun _ _ _ _ => 7, fun _ _ => 7, fun _ _ => 7, fun _ _ => 7⟩ (fun _ _ => 7) = some c := by
  obtain ⟨n, h1, h2, h3, c, e, _⟩ := C98_long_responses referenceFFT_lawful lateUsable
    ⟨fun _ _ => 7, fun _ _ _ _ => 7, fun _ _ => 7, fun _ _ => 7, fun _ _ => 7⟩ (fun _ _ => 7)
  exact ⟨n, h1, h2, h3, c, e⟩

end Zones.Props
