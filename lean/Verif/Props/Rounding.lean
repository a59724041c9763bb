import Verif.Proofs.RRange
import Verif.Proofs.RIdeal
import Verif.Proofs.RFloat
import Verif.Props.Convolver

/-!
# The convolver in floating point: error bounds that hold for every run (C71, C72, C73)

`Accurate u τ L` and `Approx F ε` (`Verif.Spec.Rounding`) are what is assumed of the arithmetic: every operation on samples is
exact up to a relative error `u`, twiddle factors up to `τ`, the library transforms up to `ε`.
-/

open Finset Zones.Spec Zones.Model Zones.Proofs Zones.Proofs.R

namespace Zones.Props

variable [Arith] {u τ ε : ℝ} {L K : ℕ}

/-- what must be in range for the convolver that is constructed -/
def InRange (f : Fp) (κ : ℝ) (W : ℕ) (ir : Buf) (B n0 : ℕ) (rest : List Layout) : Prop :=
  (∀ a ∈ (nPar B ir.ch ir n0 rest).specs, ∀ c < ir.ch,
      TFits f (Nat.log 2 B + a.p+1) (2^(Nat.log 2 B + a.p)) (segK (2^(Nat.log 2 B + a.p)) a.seg) (zext a.seg (c % a.seg.ch))) ∧
    NFits ⟨f, κ, W⟩ (nPar B ir.ch ir n0 rest) ∧
    ∀ (outR : ℕ → ℕ) (o : ℕ) (X : ℕ → ℝ), (∀ c < ir.ch, outR c = o → f.lev (X c)) →
      f.fits (mixK ⟨f, κ, W⟩ ir rest * mixM f.θ B ir n0 rest outR X o)

/-- construction, and what it establishes, in arithmetic of any kind -/
theorem usable_createIn {f : Fp} (hA : f.Acc) {F : RealFFT} (hF : f.Fft F) {ir : Buf} {maxB N : ℕ}
    {spec : ConvolverSpec} (h : Usable ir maxB spec N) {B : ℕ} {sch : List Layout}
    (hB : internalBlockSize Convolver.po2Fuel maxB spec.internalBlockSize = some B)
    (hsch : getPartitionScheme kGarciaResults B ir.n = some sch)
    (hL : ∀ l ∈ sch, 2 * (l.psb * B) ≤ 2^f.L ∧ l.np ≤ K)
    (hR : ∀ b n0 rest, B = 2^b → sch = ⟨1, n0⟩ :: rest → GoodRest (2^b) ir.n (n0 * 2^b) rest →
      InRange f (worst f.u f.τ f.ε f.L K) (memory ir B f.L) ir B n0 rest) (g : Garbage) (r0 : ℕ → ℕ → ℝ) :
    ∃ c n0 rest, Convolver.createR F ir maxB spec g r0 = some c ∧ sch = ⟨1, n0⟩ :: rest ∧ c.blockSize = B ∧
      (∀ (X : ℕ → ℝ) (o : ℕ), (∀ c < ir.ch, channelAt spec.outputRouting c = o → 0 ≤ X c) →
        mixM f.θ B ir n0 rest (channelAt spec.outputRouting) X o ≤ outputWeightF f.θ B ir sch spec.outputRouting X o) ∧
      Ctx.Ok ⟨f, worst f.u f.τ f.ε f.L K, memory ir B f.L⟩ F ∧
      ∀ x, CInv ⟨f, worst f.u f.τ f.ε f.L K, memory ir B f.L⟩ ir
        (channelAt spec.inputRouting) (channelAt spec.outputRouting) n0 rest x 0 c := by
  obtain ⟨c, n0, rest, e, eB, esch, hgood, ⟨b, hb, _⟩, hn0, hc⟩ := CInv.create hA hF (requested_le h.blockSize) h.nonempty
    h.size (fun c hc => (route_of_valid h.inputs c hc).1) (fun c hc => (route_of_valid h.outputs c hc).1) g r0
  rw [hB] at eB
  have eB' := Option.some.inj eB
  subst eB'
  rw [hsch] at esch
  have esch' := Option.some.inj esch
  subst esch'
  have hu := hA.u_nonneg
  have hτ := hA.τ_nonneg
  have hε := hA.ε_nonneg
  obtain ⟨r1, r2, r3⟩ := hR b n0 rest hb rfl (by rw [← hb]; exact hgood)
  refine ⟨c, n0, rest, e, rfl, rfl, fun X o hX => ?_, ⟨hA, hF, one_le_worst hu hτ hε f.L K⟩, hc _ _
    (one_le_worst hu hτ hε f.L K) (upK_le_worst hu hτ hε ?_) ?_ ?_ r2 (fun o X hX => r3 _ o X hX)⟩
  · unfold mixM outputWeightF
    refine sum_le_sum fun k hk => ?_
    split
    · next hko =>
      rw [hb] at hgood ⊢
      exact nPar_size (hX k (mem_range.mp hk) hko) (mem_range.mp hk) hgood
    · exact le_rfl
  · refine (segK_le (by rw [hb]; positivity) ?_).trans (hL ⟨1, n0⟩ (List.mem_cons_self ..)).2
    show min (n0 * _) _ ≤ _
    exact min_le_left _ _
  · rw [hb] at hL ⊢
    have := (hL ⟨1, n0⟩ (List.mem_cons_self ..)).1
    rw [one_mul] at this
    exact first_win this
  · intro a ha
    have hr1 := r1 a ha
    rw [hb] at hL hgood ha hr1 ⊢
    rw [Nat.log_pow (by norm_num)] at hr1 ⊢
    obtain ⟨h1, h2⟩ := specs_kappa hu hτ hε rest _ hgood (fun l hl => hL l (List.mem_cons_of_mem _ hl)) a ha
    exact ⟨h1, h2, specs_win rest _ hgood (fun l hl => (hL l (List.mem_cons_of_mem _ hl)).1) a ha, hr1⟩

/-- construction, and what it establishes -/
theorem usable_createR (hA : Accurate u τ L) {F : RealFFT} (hF : Approx F ε) {ir : Buf} {maxB N : ℕ}
    {spec : ConvolverSpec} (h : Usable ir maxB spec N) {B : ℕ} {sch : List Layout}
    (hB : internalBlockSize Convolver.po2Fuel maxB spec.internalBlockSize = some B)
    (hsch : getPartitionScheme kGarciaResults B ir.n = some sch)
    (hL : ∀ l ∈ sch, 2 * (l.psb * B) ≤ 2^L ∧ l.np ≤ K) (g : Garbage) (r0 : ℕ → ℕ → ℝ) :
    ∃ c n0 rest, Convolver.createR F ir maxB spec g r0 = some c ∧ sch = ⟨1, n0⟩ :: rest ∧ c.blockSize = B ∧
      (∀ (X : ℕ → ℝ) (o : ℕ), (∀ c < ir.ch, channelAt spec.outputRouting c = o → 0 ≤ X c) →
        mixM 0 B ir n0 rest (channelAt spec.outputRouting) X o ≤ outputWeight B ir sch spec.outputRouting X o) ∧
      Ctx.Ok ⟨Fp.ideal u τ ε L, worst u τ ε L K, memory ir B L⟩ F ∧
      ∀ x, CInv ⟨Fp.ideal u τ ε L, worst u τ ε L K, memory ir B L⟩ ir
        (channelAt spec.inputRouting) (channelAt spec.outputRouting) n0 rest x 0 c := by
  have := usable_createIn (ideal_acc hA hF.nonneg) (ideal_fft hF) h hB hsch hL
    (fun _ _ _ _ _ _ => ⟨fun _ _ _ _ => ⟨fun _ _ => trivial, fun _ _ => trivial, fun _ _ => trivial⟩,
      ⟨⟨fun _ _ => trivial, fun _ _ _ _ => trivial, fun _ _ _ _ => trivial⟩, fun _ _ _ _ => trivial⟩, fun _ _ _ _ => trivial⟩) g r0
  simp only [outputWeightF_zero, Fp.ideal] at this
  exact this

/-- the bound over a sequence of blocks, from any state that has just been created or reset -/
theorem feedR_of_inv {F : RealFFT} {ir : Buf} {maxB N : ℕ} {spec : ConvolverSpec}
    (h : Usable ir maxB spec N) {k : Ctx} (hk : k.Ok F) {c : Convolver} {n0 : ℕ} {rest : List Layout} {B : ℕ} (hB : c.blockSize = B)
    (hc : ∀ x, CInv k ir (channelAt spec.inputRouting) (channelAt spec.outputRouting) n0 rest x 0 c) (blocks : List Buf)
    (hN : ∀ b ∈ blocks, b.ch = N) :
    ∃ c' outs, feed (Convolver.processR F) c blocks = some (c', outs) ∧ SameShape blocks outs ∧
      ∀ o < N, ∀ n < totalLen blocks, ∀ X : ℕ → ℝ,
        (∀ c < ir.ch, channelAt spec.outputRouting c = o →
          k.f.lev (X c) ∧ LevelAround (stream blocks (channelAt spec.inputRouting c)) k.W B n (X c)) →
        Near (mixK k ir rest) (mixM k.f.θ B ir n0 rest (channelAt spec.outputRouting) X o)
          (stream outs o n) (routedConv ir spec.inputRouting spec.outputRouting (stream blocks) o n) := by
  obtain ⟨c', outs, e, sh, d, _⟩ := feed_rel (process := Convolver.processR F) (N := N)
    (Inv := fun t s => s.blockSize = B ∧
      CInv k ir (channelAt spec.inputRouting) (channelAt spec.outputRouting) n0 rest (stream blocks) t s)
    (x := stream blocks)
    (R := fun o n v => ∀ X : ℕ → ℝ,
        (∀ c < ir.ch, channelAt spec.outputRouting c = o →
          k.f.lev (X c) ∧ LevelAround (stream blocks (channelAt spec.inputRouting c)) k.W B n (X c)) →
      Near (mixK k ir rest) (mixM k.f.θ B ir n0 rest (channelAt spec.outputRouting) X o) v
      (routedConv ir spec.inputRouting spec.outputRouting (stream blocks) o n))
    (by
      rintro t s blk ⟨hsB, hs⟩ hch hin
      obtain ⟨s', blk', e, n, cc, hb, d, h'⟩ := hs.step hk (blk := blk)
        (fun c hc => ⟨by rw [hch]; exact (route_of_valid h.inputs c hc).2,
          by rw [hch]; exact (route_of_valid h.outputs c hc).2⟩)
        (fun c hc i hi => hin _ (route_of_valid h.inputs c hc).2 i hi)
      rw [hsB] at d
      exact ⟨s', blk', e, n, by rw [cc, hch], fun o ho i hi X hX => d o (by rw [hch]; exact ho) i hi X
        (fun c hc hco => ⟨(hX c hc hco).1, fun j h1 h2 => (hX c hc hco).2.2 j h2 h1⟩), by rw [hb, hsB], h'⟩)
    blocks 0 c ⟨hB, hc _⟩ hN (fun ch _ i _ => by rw [zero_add])
  refine ⟨c', outs, e, sh, fun o ho n hn => ?_⟩
  have := d o ho n hn
  rw [zero_add] at this
  exact this

/-- any history ends in a state of the invariant -/
theorem historyR_good {F : RealFFT} {ir : Buf} {maxB N : ℕ} {spec : ConvolverSpec}
    (h : Usable ir maxB spec N) {k : Ctx} (hk : k.Ok F) {c : Convolver} {n0 : ℕ} {rest : List Layout}
    (hc : ∀ x, CInv k ir (channelAt spec.inputRouting) (channelAt spec.outputRouting) n0 rest x 0 c) (ops : List Op)
    (hops : ∀ b, Op.process b ∈ ops → b.ch = N) :
    ∃ c', history (Convolver.processR F) Convolver.reset c ops = some c' ∧ c'.blockSize = c.blockSize ∧
      ∃ x t, CInv k ir (channelAt spec.inputRouting) (channelAt spec.outputRouting) n0 rest x t c' := by
  obtain ⟨c', e, x, t, hB, hi⟩ := history_rel (process := Convolver.processR F) (reset := Convolver.reset) (N := N)
    (Inv := fun x t s => s.blockSize = c.blockSize ∧
      CInv k ir (channelAt spec.inputRouting) (channelAt spec.outputRouting) n0 rest x t s) (by
      rintro x t s blk ⟨hB, hs⟩ hch hin
      obtain ⟨s', blk', e, _, _, hb, _, h'⟩ := hs.step hk (blk := blk)
        (fun c hc => ⟨by rw [hch]; exact (route_of_valid h.inputs c hc).2,
            by rw [hch]; exact (route_of_valid h.outputs c hc).2⟩)
        (fun c hc i hi => hin _ (route_of_valid h.inputs c hc).2 i hi)
      exact ⟨s', blk', e, by rw [hb, hB], h'⟩) (by
      rintro x t s x' ⟨hB, hs⟩
      exact ⟨hB, hs.reset hk x'⟩) ops
    (stream (lead ops)) 0 c ⟨rfl, hc _⟩ hops
    (fun ch i _ => by rw [zero_add])
  exact ⟨c', e, hB, x, t, hi⟩

theorem factor_eq {f : Fp} {K n : ℕ} {W : ℕ} {ir : Buf} {rest : List Layout} (hn : n = rest.length + 1) :
    mixK ⟨f, worst f.u f.τ f.ε f.L K, W⟩ ir rest - 1 = errorFactor f.u f.τ f.ε f.L K n ir.ch := by
  unfold mixK errorFactor worst
  rw [hn, mul_assoc _ ((1 + f.u) ^ (K + 2)), ← pow_add]
  ring_nf

/-- the general form of the bound, after any history that ends with `Reset`, in arithmetic of any kind -/
theorem boundIn {f : Fp} (hA : f.Acc) {F : RealFFT} (hF : f.Fft F) {ir : Buf} {maxB N : ℕ}
    {spec : ConvolverSpec} (h : Usable ir maxB spec N) {B : ℕ} {sch : List Layout}
    (hB : internalBlockSize Convolver.po2Fuel maxB spec.internalBlockSize = some B)
    (hsch : getPartitionScheme kGarciaResults B ir.n = some sch)
    (hL : ∀ l ∈ sch, 2 * (l.psb * B) ≤ 2^f.L ∧ l.np ≤ K)
    (hR : ∀ b n0 rest, B = 2^b → sch = ⟨1, n0⟩ :: rest → GoodRest (2^b) ir.n (n0 * 2^b) rest →
      InRange f (worst f.u f.τ f.ε f.L K) (memory ir B f.L) ir B n0 rest) (g : Garbage) (r0 : ℕ → ℕ → ℝ) :
    ∃ c, Convolver.createR F ir maxB spec g r0 = some c ∧
      (∀ ops : List Op, (∀ b, Op.process b ∈ ops → b.ch = N) →
        ∃ used, history (Convolver.processR F) Convolver.reset c ops = some used) ∧
      ∀ start, (start = c ∨ ∃ ops used, (∀ b, Op.process b ∈ ops → b.ch = N) ∧
          history (Convolver.processR F) Convolver.reset c ops = some used ∧ start = used.reset) →
        ∀ blocks : List Buf, (∀ b ∈ blocks, b.ch = N) →
          ∃ c' outs, feed (Convolver.processR F) start blocks = some (c', outs) ∧ SameShape blocks outs ∧
            ∀ o < N, ∀ n < totalLen blocks, ∀ X : ℕ → ℝ,
              (∀ c < ir.ch, channelAt spec.outputRouting c = o → f.lev (X c) ∧
                LevelAround (stream blocks (channelAt spec.inputRouting c)) (ir.n + 2^f.L + B) B n (X c)) →
              |stream outs o n - routedConv ir spec.inputRouting spec.outputRouting (stream blocks) o n| ≤
                errorFactor f.u f.τ f.ε f.L K sch.length ir.ch * outputWeightF f.θ B ir sch spec.outputRouting X o ∧
              |stream outs o n| ≤
                (1 + errorFactor f.u f.τ f.ε f.L K sch.length ir.ch) * outputWeightF f.θ B ir sch spec.outputRouting X o := by
  obtain ⟨c, n0, rest, e, esch, eB, hM, hk, hc⟩ := usable_createIn hA hF h hB hsch hL hR g r0
  refine ⟨c, e, fun ops hops => ?_, fun start hstart blocks hN => ?_⟩
  · obtain ⟨used, e1, _⟩ := historyR_good h hk hc ops hops
    exact ⟨used, e1⟩
  obtain ⟨hsB, hs⟩ : start.blockSize = B ∧ ∀ x, CInv ⟨f, worst f.u f.τ f.ε f.L K, memory ir B f.L⟩ ir
        (channelAt spec.inputRouting) (channelAt spec.outputRouting) n0 rest x 0 start := by
    rcases hstart with rfl | ⟨ops, used, hops, e1, rfl⟩
    · exact ⟨eB, hc⟩
    · obtain ⟨used', e2, hB1, x, t, hi⟩ := historyR_good h hk hc ops hops
      rw [e1] at e2
      have := Option.some.inj e2
      subst this
      exact ⟨hB1.trans eB, fun x' => hi.reset hk x'⟩
  obtain ⟨c', outs, e1, sh, d⟩ := feedR_of_inv h hk hsB hs blocks hN
  have hfac := factor_eq (f := f) (K := K) (n := sch.length) (W := memory ir B f.L) (ir := ir) (rest := rest) (by rw [esch]; rfl)
  refine ⟨c', outs, e1, sh, fun o ho n hn X hX => ?_⟩
  have hd := d o ho n hn X hX
  have hm := hM X o fun c hc hco => (hX c hc hco).2.1
  have h1 := hd.errBound hm (le_of_eq hfac)
  refine ⟨h1, ?_⟩
  have h2 := abs_sub_abs_le_abs_sub (stream outs o n) (routedConv ir spec.inputRouting spec.outputRouting (stream blocks) o n)
  have h3 := hd.bnd.trans hm
  linarith

/-- the general form of the bound, after any history that ends with `Reset` -/
theorem boundR (hA : Accurate u τ L) {F : RealFFT} (hF : Approx F ε) {ir : Buf} {maxB N : ℕ}
    {spec : ConvolverSpec} (h : Usable ir maxB spec N) {B : ℕ} {sch : List Layout}
    (hB : internalBlockSize Convolver.po2Fuel maxB spec.internalBlockSize = some B)
    (hsch : getPartitionScheme kGarciaResults B ir.n = some sch)
    (hL : ∀ l ∈ sch, 2 * (l.psb * B) ≤ 2^L ∧ l.np ≤ K) (g : Garbage) (r0 : ℕ → ℕ → ℝ) :
    ∃ c, Convolver.createR F ir maxB spec g r0 = some c ∧
      ∀ start, (start = c ∨ ∃ ops used, (∀ b, Op.process b ∈ ops → b.ch = N) ∧
          history (Convolver.processR F) Convolver.reset c ops = some used ∧ start = used.reset) →
        ∀ blocks : List Buf, (∀ b ∈ blocks, b.ch = N) →
          ∃ c' outs, feed (Convolver.processR F) start blocks = some (c', outs) ∧ SameShape blocks outs ∧
            ∀ o < N, ∀ n < totalLen blocks, ∀ X : ℕ → ℝ,
              (∀ c < ir.ch, channelAt spec.outputRouting c = o →
                LevelAround (stream blocks (channelAt spec.inputRouting c)) (ir.n + 2^L + B) B n (X c)) →
              |stream outs o n - routedConv ir spec.inputRouting spec.outputRouting (stream blocks) o n| ≤
                errorFactor u τ ε L K sch.length ir.ch * outputWeight B ir sch spec.outputRouting X o := by
  obtain ⟨c, e, _, hc⟩ := boundIn (ideal_acc hA hF.nonneg) (ideal_fft hF) h hB hsch hL
    (fun _ _ _ _ _ _ => ⟨fun _ _ _ _ => ⟨fun _ _ => trivial, fun _ _ => trivial, fun _ _ => trivial⟩,
      ⟨⟨fun _ _ => trivial, fun _ _ _ _ => trivial, fun _ _ _ _ => trivial⟩, fun _ _ _ _ => trivial⟩, fun _ _ _ _ => trivial⟩) g r0
  refine ⟨c, e, fun start hstart blocks hN => ?_⟩
  obtain ⟨c', outs, e1, sh, d⟩ := hc start hstart blocks hN
  refine ⟨c', outs, e1, sh, fun o ho n hn X hX => ?_⟩
  have := (d o ho n hn X fun c hc hco => ⟨(hX c hc hco).1, hX c hc hco⟩).1
  rw [show (Fp.ideal u τ ε L).θ = 0 from rfl, outputWeightF_zero] at this
  exact this

/-- **C71.** Rounding errors do not accumulate over time. However long the convolver has been running and however the signal was
split into blocks, every output sample is within a fixed bound of the exact convolution, and the bound depends only on the level
of the input around that sample: the last `ir.n + 2^L + B` input samples, and the rest of the block being processed. -/
theorem C71_rounding_error_bounded (hA : Accurate u τ L) {F : RealFFT} (hF : Approx F ε) {ir : Buf} {maxB N : ℕ}
    {spec : ConvolverSpec} (h : Usable ir maxB spec N) {B : ℕ} {sch : List Layout}
    (hB : internalBlockSize Convolver.po2Fuel maxB spec.internalBlockSize = some B)
    (hsch : getPartitionScheme kGarciaResults B ir.n = some sch)
    (hL : ∀ l ∈ sch, 2 * (l.psb * B) ≤ 2^L ∧ l.np ≤ K) (g : Garbage) (r0 : ℕ → ℕ → ℝ) :
    ∃ c, Convolver.createR F ir maxB spec g r0 = some c ∧
      ∀ blocks : List Buf, (∀ b ∈ blocks, b.ch = N) →
        ∃ c' outs, feed (Convolver.processR F) c blocks = some (c', outs) ∧ SameShape blocks outs ∧
          ∀ o < N, ∀ n < totalLen blocks, ∀ X : ℕ → ℝ,
            (∀ c < ir.ch, channelAt spec.outputRouting c = o →
              LevelAround (stream blocks (channelAt spec.inputRouting c)) (ir.n + 2^L + B) B n (X c)) →
            |stream outs o n - routedConv ir spec.inputRouting spec.outputRouting (stream blocks) o n| ≤
              errorFactor u τ ε L K sch.length ir.ch * outputWeight B ir sch spec.outputRouting X o := by
  obtain ⟨c, e, hc⟩ := boundR hA hF h hB hsch hL g r0
  exact ⟨c, e, hc c (.inl rfl)⟩

/-- **C71**, in terms of the sum of the magnitudes of the impulse response, for a signal that stays below `X`. -/
theorem C71_rounding_error_absolute (hA : Accurate u τ L) {F : RealFFT} (hF : Approx F ε) {ir : Buf} {maxB N : ℕ}
    {spec : ConvolverSpec} (h : Usable ir maxB spec N) {B : ℕ} {sch : List Layout}
    (hB : internalBlockSize Convolver.po2Fuel maxB spec.internalBlockSize = some B)
    (hsch : getPartitionScheme kGarciaResults B ir.n = some sch)
    (hL : ∀ l ∈ sch, 2 * (l.psb * B) ≤ 2^L ∧ l.np ≤ K) (g : Garbage) (r0 : ℕ → ℕ → ℝ) :
    ∃ c, Convolver.createR F ir maxB spec g r0 = some c ∧
      ∀ (X : ℝ) (blocks : List Buf), 0 ≤ X → (∀ b ∈ blocks, b.ch = N) → (∀ ch < N, ∀ i, |stream blocks ch i| ≤ X) →
        ∃ c' outs, feed (Convolver.processR F) c blocks = some (c', outs) ∧ SameShape blocks outs ∧
          ∀ o < N, ∀ n < totalLen blocks,
            |stream outs o n - routedConv ir spec.inputRouting spec.outputRouting (stream blocks) o n| ≤
              errorFactor u τ ε L K sch.length ir.ch * (2 * √(2^L) * X *
                ∑ c ∈ range ir.ch, if channelAt spec.outputRouting c = o then ∑ i ∈ range ir.n, |ir.data c i| else 0) := by
  obtain ⟨c, e, hc⟩ := boundR hA hF h hB hsch hL g r0
  refine ⟨c, e, fun X blocks hX hN hbd => ?_⟩
  obtain ⟨c', outs, e1, sh, d⟩ := hc c (.inl rfl) blocks hN
  refine ⟨c', outs, e1, sh, fun o ho n hn => (d o ho n hn (fun _ => X)
    (fun c hc _ => ⟨hX, fun m _ _ => hbd _ (route_of_valid h.inputs c hc).2 m⟩)).trans ?_⟩
  have hu := hA.u_nonneg
  have h1 : 0 ≤ errorFactor u τ ε L K sch.length ir.ch := by
    unfold errorFactor
    have h1 : 1 ≤ (1 + ε) ^ 3 := one_le_pow₀ (by linarith [hF.nonneg])
    have h2 : 1 ≤ ((1 + u) ^ 3 * (1 + τ)) ^ (3 * L) := one_le_pow₀ (one_le_lvl hu hA.τ_nonneg)
    have h3 : 1 ≤ (1 + u) ^ (K + 2 + sch.length + ir.ch) := one_le_pow₀ (by linarith)
    have := one_le_mul_of_one_le_of_one_le (one_le_mul_of_one_le_of_one_le h1 h2) h3
    linarith
  refine mul_le_mul_of_nonneg_left ?_ h1
  unfold outputWeight
  rw [mul_sum]
  refine sum_le_sum fun c _ => ?_
  split
  · have h2 : schemeNorm B (extended ir c) 0 sch ≤ 2 * √(2^L) * r1 ir.n (ir.data c) :=
      schemeNorm_le_r1 ir c fun l hl => (hL l hl).1
    have := mul_le_mul_of_nonneg_left h2 hX
    refine this.trans (le_of_eq ?_)
    unfold r1
    ring
  · simp

/-- **C72.** In floating point too, Reset erases the past: after any history of `Process` and `Reset` calls, whatever was
processed, the error of everything processed after a `Reset` obeys the bound of C71, with levels of the new input alone. -/
theorem C72_reset_forgets_rounding_errors (hA : Accurate u τ L) {F : RealFFT} (hF : Approx F ε) {ir : Buf} {maxB N : ℕ}
    {spec : ConvolverSpec} (h : Usable ir maxB spec N) {B : ℕ} {sch : List Layout}
    (hB : internalBlockSize Convolver.po2Fuel maxB spec.internalBlockSize = some B)
    (hsch : getPartitionScheme kGarciaResults B ir.n = some sch)
    (hL : ∀ l ∈ sch, 2 * (l.psb * B) ≤ 2^L ∧ l.np ≤ K) (g : Garbage) (r0 : ℕ → ℕ → ℝ) :
    ∃ c, Convolver.createR F ir maxB spec g r0 = some c ∧
      ∀ ops : List Op, (∀ b, Op.process b ∈ ops → b.ch = N) →
        ∃ used, history (Convolver.processR F) Convolver.reset c ops = some used ∧
          ∀ blocks : List Buf, (∀ b ∈ blocks, b.ch = N) →
            ∃ c' outs, feed (Convolver.processR F) used.reset blocks = some (c', outs) ∧ SameShape blocks outs ∧
              ∀ o < N, ∀ n < totalLen blocks, ∀ X : ℕ → ℝ,
                (∀ c < ir.ch, channelAt spec.outputRouting c = o →
                  LevelAround (stream blocks (channelAt spec.inputRouting c)) (ir.n + 2^L + B) B n (X c)) →
                |stream outs o n - routedConv ir spec.inputRouting spec.outputRouting (stream blocks) o n| ≤
                  errorFactor u τ ε L K sch.length ir.ch * outputWeight B ir sch spec.outputRouting X o := by
  obtain ⟨c, n0, rest, e, _, _, _, hk, hc⟩ := usable_createR hA hF h hB hsch hL g r0
  obtain ⟨c2, e2, hc2⟩ := boundR hA hF h hB hsch hL g r0
  rw [e] at e2
  have := Option.some.inj e2
  subst this
  refine ⟨c, e, fun ops hops => ?_⟩
  obtain ⟨used, e1, _⟩ := historyR_good h hk hc ops hops
  exact ⟨used, e1, hc2 used.reset (.inr ⟨ops, used, hops, e1, rfl⟩)⟩

/-- **C73.** Silence is exact in floating point. From a new convolver, or from one that was reset after any history: whenever the
inputs that are routed to an output have been exactly zero for `ir.n + 2^L + B` samples and stay zero for the rest of the block,
that output is exactly zero. No rounding noise keeps circulating, and none ever appears on a silent input. -/
theorem C73_silence_is_exact (hA : Accurate u τ L) {F : RealFFT} (hF : Approx F ε) {ir : Buf} {maxB N : ℕ}
    {spec : ConvolverSpec} (h : Usable ir maxB spec N) {B : ℕ} {sch : List Layout}
    (hB : internalBlockSize Convolver.po2Fuel maxB spec.internalBlockSize = some B)
    (hsch : getPartitionScheme kGarciaResults B ir.n = some sch)
    (hL : ∀ l ∈ sch, 2 * (l.psb * B) ≤ 2^L ∧ l.np ≤ K) (g : Garbage) (r0 : ℕ → ℕ → ℝ) :
    ∃ c, Convolver.createR F ir maxB spec g r0 = some c ∧
      ∀ start, (start = c ∨ ∃ ops used, (∀ b, Op.process b ∈ ops → b.ch = N) ∧
          history (Convolver.processR F) Convolver.reset c ops = some used ∧ start = used.reset) →
        ∀ blocks : List Buf, (∀ b ∈ blocks, b.ch = N) →
          ∃ c' outs, feed (Convolver.processR F) start blocks = some (c', outs) ∧ SameShape blocks outs ∧
            ∀ o < N, ∀ n < totalLen blocks,
              (∀ c < ir.ch, channelAt spec.outputRouting c = o → ∀ m, n < m + (ir.n + 2^L + B) → m < n + B →
                stream blocks (channelAt spec.inputRouting c) m = 0) →
              stream outs o n = 0 := by
  obtain ⟨c, e, hc⟩ := boundR hA hF h hB hsch hL g r0
  refine ⟨c, e, fun start hstart blocks hN => ?_⟩
  obtain ⟨c', outs, e1, sh, d⟩ := hc start hstart blocks hN
  refine ⟨c', outs, e1, sh, fun o ho n hn hz => ?_⟩
  have h1 := d o ho n hn (fun _ => 0)
    (fun c hc hco => ⟨le_rfl, fun m h1 h2 => by rw [hz c hc hco m h1 h2, abs_zero]⟩)
  have h0 : outputWeight B ir sch spec.outputRouting (fun _ => 0) o = 0 := by
    unfold outputWeight
    simp
  rw [h0, mul_zero] at h1
  have hBpos : 0 < B := by
    obtain ⟨b, _, _, e, _, _⟩ := internalBlockSize_eq (fuel := Convolver.po2Fuel) (by unfold Convolver.po2Fuel; omega)
      (requested_le h.blockSize)
    rw [hB] at e
    have := Option.some.inj e
    rw [this]; positivity
  have h2 : routedConv ir spec.inputRouting spec.outputRouting (stream blocks) o n = 0 := by
    unfold routedConv linConv
    refine sum_eq_zero fun k hk => ?_
    split
    · next hko =>
      refine sum_eq_zero fun j hj => ?_
      rw [mem_range] at hj hk
      split
      · rw [hz k hk hko (n - j) (by have h5 : (0:ℕ) < 2^L := by positivity
                                    omega) (by omega), mul_zero]
      · rfl
    · rfl
  rw [h2, sub_zero] at h1
  exact abs_nonpos_iff.mp h1

end Zones.Props
