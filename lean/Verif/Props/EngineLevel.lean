import Verif.Proofs.EngineLevel
import Verif.Props.FloatEngine
import Verif.Props.EngineReset

/-!
# C78–C81: how loud the output can be
-/

open Zones.Spec Zones.Model Zones.Proofs Zones.Proofs.R Finset

namespace Zones.Props

/-! ## Fades -/

theorem gainLimits_exact : GainLimits .exact (fun _ => True) 1 := by
  have key : ∀ x y, GainPair .exact (fun _ => True) x y → 0 ≤ x ∧ 0 ≤ y ∧ x + y = 1 := by
    intro x y h
    cases h with
    | start => norm_num
    | done => norm_num
    | mid n t hn _ =>
      rw [gainAt_exact hn, gainAt_exact hn]
      obtain ⟨h0, h1⟩ := fadeGain_range (n := n) (t := t)
      refine ⟨by linarith, by linarith, by ring⟩
  refine ⟨le_rfl, fun x y h a f m ha hf => ?_, fun x y h a m ha => ?_, fun x y h f m hf => ?_⟩
  · obtain ⟨h0, h1, h2⟩ := key x y h
    show |a * x + f * y| ≤ 1 * m
    refine (abs_add_le _ _).trans ?_
    rw [abs_mul, abs_mul, abs_of_nonneg h0, abs_of_nonneg h1]
    have := mul_le_mul_of_nonneg_right ha h0
    have := mul_le_mul_of_nonneg_right hf h1
    have e : m = m * x + m * y := by rw [← mul_add, h2, mul_one]
    linarith
  · obtain ⟨h0, h1, h2⟩ := key x y h
    show |a * x| ≤ 1 * m
    rw [abs_mul, abs_of_nonneg h0, one_mul]
    exact (mul_le_of_le_one_right (abs_nonneg a) (by linarith)).trans ha
  · obtain ⟨h0, h1, h2⟩ := key x y h
    show |f * y| ≤ 1 * m
    rw [abs_mul, abs_of_nonneg h1, one_mul]
    exact (mul_le_of_le_one_right (abs_nonneg f) (by linarith)).trans hf

theorem abs_le_of_near {x y e m : ℝ} (h : |x - y| ≤ (e - 1) * m) (hy : |y| ≤ m) : |x| ≤ e * m := by
  have := abs_add_le (x - y) y
  rw [sub_add_cancel] at this
  linarith

theorem gainLimits_accurate {g : GainArith} {u : ℝ} (hg : AccurateGains g u) {T : ℕ} (hT : T ≤ 2 ^ 24) :
    GainLimits g (fun n => n ≤ T) ((1 + u) ^ (2 * T + 6)) := by
  have hu := hg.u_nonneg
  have hI := implements_accurate hg
  have h1u : 1 ≤ 1 + u := by linarith
  have hmono : ∀ k, k ≤ 2 * T + 6 → ∀ m, 0 ≤ m → (1 + u) ^ k * m ≤ (1 + u) ^ (2 * T + 6) * m :=
    fun k hk m hm => mul_le_mul_of_nonneg_right (pow_le_pow_right₀ h1u hk) hm
  have hone : ∀ a, |g.mul a 1| ≤ (1 + u) ^ 1 * |a| := by
    intro a
    have := hg.mul a 1
    rw [mul_one] at this
    exact abs_le_of_near (this.trans (le_of_eq (by ring))) le_rfl
  have hsum : ∀ a b, |g.add a b| ≤ (1 + u) * |a + b| := by
    intro a b
    exact abs_le_of_near ((hg.add a b).trans (le_of_eq (by ring))) le_rfl
  refine ⟨one_le_pow₀ h1u, fun x y h a f m ha hf => ?_, fun x y h a m ha => ?_, fun x y h f m hf => ?_⟩
  · have hm : 0 ≤ m := (abs_nonneg a).trans ha
    cases h with
    | start =>
      rw [mul_zero_gain hg]
      refine (hsum _ _).trans ?_
      rw [add_zero]
      refine (mul_le_mul_of_nonneg_left ((hone a).trans (mul_le_mul_of_nonneg_left ha (by positivity))) (by linarith)).trans ?_
      refine le_trans (le_of_eq ?_) (hmono 2 (by omega) m hm)
      ring
    | done =>
      rw [mul_zero_gain hg]
      refine (hsum _ _).trans ?_
      rw [zero_add]
      refine (mul_le_mul_of_nonneg_left ((hone f).trans (mul_le_mul_of_nonneg_left hf (by positivity))) (by linarith)).trans ?_
      refine le_trans (le_of_eq ?_) (hmono 2 (by omega) m hm)
      ring
    | mid n t hn hl =>
      have hmax : max |a| |f| ≤ m := max_le ha hf
      have h0 : 0 ≤ max |a| |f| := (abs_nonneg a).trans (le_max_left _ _)
      have h1 := (hI.mix n t a f hn (hl.trans hT)).1
      have h2 : |(1 - fadeGain n t) * a + fadeGain n t * f| ≤ max |a| |f| := by
        obtain ⟨g0, g1⟩ := fadeGain_range (n := n) (t := t)
        refine (abs_add_le _ _).trans ?_
        rw [abs_mul, abs_mul, abs_of_nonneg g0, abs_of_nonneg (by linarith : (0:ℝ) ≤ 1 - fadeGain n t)]
        have := mul_le_mul_of_nonneg_left (le_max_left |a| |f|) (by linarith : (0:ℝ) ≤ 1 - fadeGain n t)
        have := mul_le_mul_of_nonneg_left (le_max_right |a| |f|) g0
        linarith
      refine (abs_le_of_near h1 h2).trans ?_
      exact (mul_le_mul_of_nonneg_left hmax (by positivity)).trans (hmono _ (by omega) m hm)
  · have hm : 0 ≤ m := (abs_nonneg a).trans ha
    cases h with
    | start => exact (hone a).trans ((mul_le_mul_of_nonneg_left ha (by positivity)).trans (hmono 1 (by omega) m hm))
    | done =>
      rw [mul_zero_gain hg, abs_zero]
      positivity
    | mid n t hn hl =>
      have h1 := (hI.fadeOut n t a hn (hl.trans hT)).1
      have h2 : |(1 - fadeGain n t) * a| ≤ |a| := by
        obtain ⟨g0, g1⟩ := fadeGain_range (n := n) (t := t)
        rw [abs_mul, abs_of_nonneg (by linarith : (0:ℝ) ≤ 1 - fadeGain n t)]
        exact mul_le_of_le_one_left (abs_nonneg a) (by linarith)
      refine (abs_le_of_near h1 h2).trans ?_
      exact (mul_le_mul_of_nonneg_left ha (by positivity)).trans (hmono _ (by omega) m hm)
  · have hm : 0 ≤ m := (abs_nonneg f).trans hf
    cases h with
    | start =>
      rw [mul_zero_gain hg, abs_zero]
      positivity
    | done => exact (hone f).trans ((mul_le_mul_of_nonneg_left hf (by positivity)).trans (hmono 1 (by omega) m hm))
    | mid n t hn hl =>
      have h1 := (hI.fadeIn n t f hn (hl.trans hT)).1
      have h2 : |fadeGain n t * f| ≤ |f| := by
        rw [abs_mul, abs_of_nonneg fadeGain_range.1]
        exact mul_le_of_le_one_left (abs_nonneg f) fadeGain_range.2
      have h3 : |g.mul f (gainAt g 0 1 n t) - fadeGain n t * f| ≤ ((1 + u) ^ (n + 3) - 1) * |f| := by
        refine h1.trans (mul_le_mul_of_nonneg_left h2 ?_)
        have : 1 ≤ (1 + u) ^ (n + 3) := one_le_pow₀ h1u
        linarith
      refine (abs_le_of_near h3 h2).trans ?_
      exact (mul_le_mul_of_nonneg_left hf (by positivity)).trans (hmono _ (by omega) m hm)

/-! ## Histories -/

section
variable {V : Type}

/-- The last block of a history in two parts: anything may be heard in the first, only blocks at level `X` in the second. -/
theorem level_recent {ops : ConvOps V} {Len : ℕ → Prop} {Λ : ℝ} (hG : GainLimits ops.gains Len Λ) {N : ℕ} {Good : V → Prop} (hA : Accepts ops N Good)
    {X Y : ℝ} (h0 : 0 ≤ max X Y) {P1 P : ℕ → ℕ → V → Prop} (h1 : Ages ops N 0 (fun _ => True) P1) (h2 : Ages ops N 1 (AtMost X) P)
    (h12 : ∀ n i v, P1 n i v → P n i v) {pre post : List (List (Held V) × Call)} {batch : List (Held V)} {blk : Buf}
    (hL : Limits ops N blk.n X Y (P (samplesIn post)))
    (hw : WellFormed N Good none (pre ++ post ++ [(batch, .process blk)])) (hd1 : Delivers (fun i v => ∀ m, P1 m i v) pre)
    (hd2 : Delivers (fun i v => ∀ m, P m i v) (post ++ [(batch, .process blk)]))
    (hx : InputAtMost X (post ++ [(batch, .process blk)])) (hs : ShortFades Len (pre ++ post)) :
    ∃ c1 c2 e out, ({} : Core V).calls ops (pre ++ post) = some c1 ∧ c1.call ops batch (.process blk) = some (c2, e) ∧ e.out = some out ∧ out.ch = N ∧
      out.n = blk.n ∧ AtMost (Λ * max X Y) out := by
  rw [List.append_assoc] at hw
  obtain ⟨c, M, e1, k1, l1, a1, w1⟩ := calls_level (Len := Len) hA h1 (post ++ [(batch, .process blk)]) pre none {} 0 (fun _ => rfl) (start_known N Good) trivial
    ⟨fun _ h => (by cases h), fun _ h => (by cases h), fun _ _ h => (by cases h), fun _ h => (by cases h)⟩ hw hd1 (fun _ _ _ _ => trivial)
    (fun b hb => hs b (by simp [hb]))
  rw [Nat.zero_mul, Nat.add_zero] at a1
  obtain ⟨c', M', e2, k2, l2, a2, w2⟩ := calls_level (Len := Len) hA h2 [(batch, .process blk)] post M c 0 (fun _ => rfl) k1 l1 (a1.mono h12) w1
    (fun b hb => hd2 b (by simp [hb])) (fun b hb => hx b (by simp [hb])) (fun b hb => hs b (by simp [hb]))
  rw [Nat.one_mul, Nat.zero_add] at a2
  obtain ⟨r, _, e3, _, _, _, ho⟩ := call_level hA k2 l2 w2 (fun x hx' p g hp => by rw [List.mem_singleton.1 hx'] at hp; cases hp)
  obtain ⟨out, o1, o2, o3, o4⟩ := ho blk rfl
  refine ⟨c', r.1, r.2, out, ?_, e3, o1, o2, o3, o4 Λ hG X Y P _ h0 hL a2 (fun g hg => hd2 (batch, .process blk) (by simp) g hg) (hx (batch, .process blk) (by simp) blk rfl)⟩
  rw [calls_append, e1]
  exact e2

end

/-! ## Convolvers -/

theorem stream_le {X : ℝ} (hX : 0 ≤ X) {N : ℕ} : ∀ {bs : List Buf}, (∀ b ∈ bs, b.ch = N) → (∀ b ∈ bs, AtMost X b) → ∀ ch < N, ∀ n, |stream bs ch n| ≤ X
  | [], _, _, _, _, _ => by simpa [stream] using hX
  | b :: bs, hc, hb, ch, hch, n => by
    unfold stream
    split
    · next h => exact hb b (by simp) ch (by rw [hc b (by simp)]; exact hch) n h
    · exact stream_le hX (fun b' h' => hc b' (by simp [h'])) (fun b' h' => hb b' (by simp [h'])) ch hch _

theorem linConv_le {X : ℝ} (hX : 0 ≤ X) {L : ℕ} {h x : ℕ → ℝ} {n : ℕ} (hx : ∀ k < L, k ≤ n → |x (n - k)| ≤ X) : |linConv L h x n| ≤ (∑ k ∈ range L, |h k|) * X := by
  unfold linConv
  refine (abs_sum_le_sum_abs _ _).trans ?_
  rw [sum_mul]
  refine sum_le_sum fun k hk => ?_
  split
  · next hkn =>
    rw [abs_mul]
    exact mul_le_mul_of_nonneg_left (hx k (mem_range.1 hk) hkn) (abs_nonneg _)
  · rw [abs_zero]
    positivity

theorem routedConv_le {X : ℝ} (hX : 0 ≤ X) {ir : Buf} {inR outR : List ℤ} {N : ℕ} (hin : ValidRouting inR ir.ch N) {x : ℕ → ℕ → ℝ} {n : ℕ}
    (hx : ∀ ch < N, ∀ k < ir.n, k ≤ n → |x ch (n - k)| ≤ X) (o : ℕ) : |routedConv ir inR outR x o n| ≤ responseGain ir outR o * X := by
  unfold routedConv responseGain
  refine (abs_sum_le_sum_abs _ _).trans ?_
  rw [sum_mul]
  refine sum_le_sum fun c hc => ?_
  split
  · exact linConv_le hX (hx _ (route_of_valid hin c (mem_range.1 hc)).2)
  · simp

theorem stream_append_left : ∀ (xs ys : List Buf) {ch t : ℕ}, t < totalLen xs → stream (xs ++ ys) ch t = stream xs ch t
  | [], _, _, _, h => by simp [totalLen] at h
  | x :: xs, ys, ch, t, h => by
    simp only [totalLen] at h
    rw [List.cons_append, stream, stream]
    split
    · rfl
    · exact stream_append_left xs ys (by omega)

/-- The last `n` samples of what has been heard are at most at level `X`. -/
def Recent (X : ℝ) (N n : ℕ) (past : List Buf) : Prop := ∀ ch < N, ∀ m, totalLen past ≤ m + n → |stream past ch m| ≤ X

theorem Recent_all {X : ℝ} (hX : 0 ≤ X) {N : ℕ} {past : List Buf} (hc : ∀ b ∈ past, b.ch = N) (h : ∀ b ∈ past, AtMost X b) (n : ℕ) : Recent X N n past :=
  fun ch hch m _ => stream_le hX hc h ch hch m

theorem Recent_zero {X : ℝ} (hX : 0 ≤ X) {N : ℕ} (past : List Buf) : Recent X N 0 past := by
  intro ch _ m hm
  rw [stream_beyond _ _ _ (by omega), abs_zero]
  exact hX

theorem Recent_snoc {X : ℝ} (hX : 0 ≤ X) {N n : ℕ} {past : List Buf} (h : Recent X N n past) {blk : Buf} (hb : blk.ch = N) (hx : AtMost X blk) :
    Recent X N (n + blk.n) (past ++ [blk]) := by
  intro ch hch m hm
  rw [totalLen_append, show totalLen [blk] = blk.n by simp [totalLen]] at hm
  by_cases hl : m < totalLen past
  · rw [stream_append_left past [blk] hl]
    exact h ch hch m (by omega)
  · obtain ⟨d, rfl⟩ : ∃ d, m = totalLen past + d := ⟨m - totalLen past, by omega⟩
    rw [stream_append_right]
    exact stream_le hX (bs := [blk]) (by simpa using hb) (by simpa using hx) ch hch _

/-- One block, from the description of a sequence of blocks. -/
theorem one_block {σ : Type} {process : σ → Buf → Option (σ × Buf)} {v v' v2 : σ} {blk o : Buf} {outs : List Buf} (e : process v blk = some (v', o))
    (h : Spec.feed process v [blk] = some (v2, outs)) : v2 = v' ∧ outs = [o] := by
  rw [Spec.feed, e, Option.bind_some, Spec.feed] at h
  cases h
  exact ⟨rfl, rfl⟩

/-- A convolver for response `i` that raises the level at most by `G` and has heard nothing louder than `X`, or nothing louder in the
last `n` samples and its response is no longer than `W + 1`. -/
def Quiet (F : RealFFT) (N : ℕ) (irs : ℕ → Buf) (maxBs : ℕ → ℕ) (specs : ℕ → ConvolverSpec) (X G : ℝ) (W n i : ℕ) (v : Convolver) : Prop :=
  Usable (irs i) (maxBs i) (specs i) N ∧ (∀ o < N, responseGain (irs i) (specs i).outputRouting o ≤ G) ∧
    ∃ past, Heard F (irs i) (maxBs i) (specs i) N past v ∧ ((∀ b ∈ past, AtMost X b) ∨ ((irs i).n ≤ W + 1 ∧ Recent X N n past))

theorem quiet_ages {F : RealFFT} (hF : Lawful F) {N : ℕ} {irs : ℕ → Buf} {maxBs : ℕ → ℕ} {specs : ℕ → ConvolverSpec} {X G : ℝ} {W : ℕ} (hX : 0 ≤ X) :
    Ages (convolverOps F) N 1 (AtMost X) (Quiet F N irs maxBs specs X G W) := by
  refine ⟨AtMost_samples X, ?_, ?_⟩
  · rintro n - i v blk v' o ⟨hU, hG, past, hH, hp⟩ hb hx e
    obtain ⟨v2, outs, e2, sh, hh, hd⟩ := Heard_feed hF hU hH [blk] (by simpa using hb)
    obtain ⟨rfl, rfl⟩ := one_block e e2
    refine ⟨hU, hG, _, hh, ?_⟩
    rcases hp with hp | ⟨hl, hp⟩
    · left
      intro b hb'
      rcases List.mem_append.1 hb' with h | h
      · exact hp b h
      · rw [List.mem_singleton.1 h]; exact hx
    · right
      rw [Nat.one_mul]
      exact ⟨hl, Recent_snoc hX hp hb hx⟩
  · rintro n i v ⟨hU, hG, past, hH, hp⟩ m
    exact ⟨hU, hG, [], Heard_fresh (Heard_reset hH), Or.inl (by simp)⟩

theorem quiet_ages_loud {F : RealFFT} (hF : Lawful F) {N : ℕ} {irs : ℕ → Buf} {maxBs : ℕ → ℕ} {specs : ℕ → ConvolverSpec} {X G : ℝ} {W : ℕ} (hX : 0 ≤ X) :
    Ages (convolverOps F) N 0 (fun _ => True) (fun n i v => (irs i).n ≤ W + 1 ∧ Quiet F N irs maxBs specs X G W n i v) := by
  refine ⟨fun _ _ _ _ _ _ => trivial, ?_, ?_⟩
  · rintro n hn i v blk v' o ⟨hl, hU, hG, past, hH, -⟩ hb - e
    obtain rfl := hn rfl
    obtain ⟨v2, outs, e2, sh, hh, hd⟩ := Heard_feed hF hU hH [blk] (by simpa using hb)
    obtain ⟨rfl, rfl⟩ := one_block e e2
    exact ⟨hl, hU, hG, _, hh, Or.inr ⟨hl, by rw [Nat.zero_mul]; exact Recent_zero hX _⟩⟩
  · rintro n i v ⟨hl, hU, hG, past, hH, hp⟩ m
    exact ⟨hl, hU, hG, [], Heard_fresh (Heard_reset hH), Or.inl (by simp)⟩

theorem quiet_limits {F : RealFFT} (hF : Lawful F) {N : ℕ} {irs : ℕ → Buf} {maxBs : ℕ → ℕ} {specs : ℕ → ConvolverSpec} {X G : ℝ} {W : ℕ} (hX : 0 ≤ X) (k : ℕ) :
    Limits (convolverOps F) N k X (G * X) (Quiet F N irs maxBs specs X G W W) := by
  rintro i v blk v' o ⟨hU, hG, past, hH, hp⟩ hb _ hx e
  obtain ⟨v2, outs, e2, sh, hh, hd⟩ := Heard_feed hF hU hH [blk] (by simpa using hb)
  obtain ⟨rfl, rfl⟩ := one_block e e2
  intro ch hc j hj
  obtain ⟨s1, s2⟩ := (List.forall₂_cons.mp sh).1
  have hch : ch < N := by rw [← hb, s1]; exact hc
  have hj' : j < blk.n := by rw [s2]; exact hj
  have := hd ch hch j (by simpa [totalLen] using hj')
  rw [show stream [o] ch j = o.data ch j by unfold stream; rw [if_pos hj]] at this
  rw [this]
  refine (routedConv_le hX hU.inputs (fun c hc k hk hkn => ?_) ch).trans (mul_le_mul_of_nonneg_right (hG ch hch) hX)
  rcases hp with hp | ⟨hl, hp⟩
  · exact Recent_snoc hX (Recent_all hX hH.1 hp (totalLen past)) hb hx c hc _ (by rw [totalLen_append, show totalLen [blk] = blk.n by simp [totalLen]]; omega)
  · exact Recent_snoc hX hp hb hx c hc _ (by rw [totalLen_append, show totalLen [blk] = blk.n by simp [totalLen]]; omega)

theorem max_level {X G : ℝ} (hX : 0 ≤ X) : max X (G * X) = max 1 G * X := by
  rw [max_mul_of_nonneg _ _ hX, one_mul]

/-- **C80.** The level of the output is governed by the recent input alone. `pre` is any sequence of calls, with input as loud as you like;
after it come the calls `post`, in which at least as many samples are processed as the responses delivered before are long (less one) and
whose input is at most at level `X`. Then the block processed next, itself at most at level `X`, comes out at most at level `max 1 G · X`. -/
theorem C80_past_is_forgotten {F : RealFFT} (hF : Lawful F) {N : ℕ} {irs : ℕ → Buf} {maxBs : ℕ → ℕ} {specs : ℕ → ConvolverSpec} {X G : ℝ} (hX : 0 ≤ X)
    {pre post : List (List (Held Convolver) × Call)} {batch : List (Held Convolver)} {blk : Buf}
    (hw : WellFormed N (Serves F N) none (pre ++ post ++ [(batch, .process blk)])) (hB : BuiltFor F N irs maxBs specs (pre ++ post ++ [(batch, .process blk)]))
    (hI : InputAtMost X (post ++ [(batch, .process blk)]))
    (hL : ∀ b ∈ pre, ∀ g ∈ b.1, (irs g.id).n ≤ samplesIn post + 1)
    (hG : ∀ b ∈ pre ++ post ++ [(batch, .process blk)], ∀ g ∈ b.1, ∀ o < N, responseGain (irs g.id) (specs g.id).outputRouting o ≤ G) :
    ∃ c c' e out, ({} : Core Convolver).calls (convolverOps F) (pre ++ post) = some c ∧ c.call (convolverOps F) batch (.process blk) = some (c', e) ∧
      e.out = some out ∧ out.ch = N ∧ out.n = blk.n ∧ AtMost (max 1 G * X) out := by
  have h0 : 0 ≤ max X (G * X) := hX.trans (le_max_left _ _)
  have hnew : ∀ b ∈ pre ++ post ++ [(batch, Call.process blk)], ∀ g ∈ b.1, ∀ m, Quiet F N irs maxBs specs X G (samplesIn post) m g.id g.obj :=
    fun b hb g hg m => ⟨(hB b hb g hg).1, hG b hb g hg, [], Heard_fresh (hB b hb g hg).2, Or.inl (by simp)⟩
  obtain ⟨c, c', e, out, h1, h2, h3, h4, h5, h6⟩ := level_recent (ops := convolverOps F) (Len := fun _ => True) gainLimits_exact
    (accepts_convolver hF N) h0 (quiet_ages_loud (irs := irs) (maxBs := maxBs) (specs := specs) (G := G) (W := samplesIn post) hF hX) (quiet_ages hF hX)
    (fun n i v h => h.2) (quiet_limits hF hX _) hw (fun b hb g hg m => ⟨hL b hb g hg, hnew b (by simp [hb]) g hg m⟩)
    (fun b hb g hg m => hnew b (by rw [List.append_assoc]; exact List.mem_append_right _ hb) g hg m) hI (fun _ _ _ _ _ _ _ => trivial)
  refine ⟨c, c', e, out, h1, h2, h3, h4, h5, ?_⟩
  rw [one_mul, max_level hX] at h6
  exact h6

/-- **C78.** The output is never louder than the input times the gain of the strongest response (or times 1), whatever the history: `hist` is
any sequence of calls — responses arriving at any time, also several at once and in the middle of fades, resets, prepares and clears
at any time, also while fades run and responses wait — and `blk` the block processed last. If no block of the input exceeds `X` and no
response amplifies by more than `G`, the output does not exceed `max 1 G · X`. -/
theorem C78_level_bounded {F : RealFFT} (hF : Lawful F) {N : ℕ} {irs : ℕ → Buf} {maxBs : ℕ → ℕ} {specs : ℕ → ConvolverSpec} {X G : ℝ} (hX : 0 ≤ X)
    {hist : List (List (Held Convolver) × Call)} {batch : List (Held Convolver)} {blk : Buf}
    (hw : WellFormed N (Serves F N) none (hist ++ [(batch, .process blk)])) (hB : BuiltFor F N irs maxBs specs (hist ++ [(batch, .process blk)]))
    (hI : InputAtMost X (hist ++ [(batch, .process blk)]))
    (hG : ∀ b ∈ hist ++ [(batch, .process blk)], ∀ g ∈ b.1, ∀ o < N, responseGain (irs g.id) (specs g.id).outputRouting o ≤ G) :
    ∃ c c' e out, ({} : Core Convolver).calls (convolverOps F) hist = some c ∧ c.call (convolverOps F) batch (.process blk) = some (c', e) ∧
      e.out = some out ∧ out.ch = N ∧ out.n = blk.n ∧ AtMost (max 1 G * X) out :=
  C80_past_is_forgotten hF hX (pre := []) hw hB hI (fun _ h => (by cases h)) hG

/-- Every history has a strongest response. -/
theorem strongest (gain : ℕ → ℕ → ℝ) (N : ℕ) (hist : List (List (Held Convolver) × Call)) :
    ∃ G : ℝ, ∀ b ∈ hist, ∀ g ∈ b.1, ∀ o < N, gain g.id o ≤ G := by
  refine ⟨(hist.flatMap fun b => b.1.flatMap fun g => (List.range N).map fun o => |gain g.id o|).sum, fun b hb g hg o ho => ?_⟩
  refine (le_abs_self _).trans (List.single_le_sum ?_ _ ?_)
  · intro x hx
    simp only [List.mem_flatMap, List.mem_map] at hx
    obtain ⟨_, _, _, _, _, _, rfl⟩ := hx
    exact abs_nonneg _
  · simp only [List.mem_flatMap, List.mem_map]
    exact ⟨b, hb, g, hg, o, List.mem_range.2 ho, rfl⟩

/-- **C78.** In particular, if all input has been silent, so is the output: nothing the engine contains, or finds in memory it has not written,
ever reaches the output. -/
theorem C78_silence_stays_silent {F : RealFFT} (hF : Lawful F) {N : ℕ} {irs : ℕ → Buf} {maxBs : ℕ → ℕ} {specs : ℕ → ConvolverSpec}
    {hist : List (List (Held Convolver) × Call)} {batch : List (Held Convolver)} {blk : Buf}
    (hw : WellFormed N (Serves F N) none (hist ++ [(batch, .process blk)])) (hB : BuiltFor F N irs maxBs specs (hist ++ [(batch, .process blk)]))
    (hI : InputAtMost 0 (hist ++ [(batch, .process blk)])) :
    ∃ c c' e out, ({} : Core Convolver).calls (convolverOps F) hist = some c ∧ c.call (convolverOps F) batch (.process blk) = some (c', e) ∧
      e.out = some out ∧ out.ch = N ∧ out.n = blk.n ∧ ∀ ch < N, ∀ i < blk.n, out.data ch i = 0 := by
  obtain ⟨G, hG⟩ := strongest (fun i o => responseGain (irs i) (specs i).outputRouting o) N (hist ++ [(batch, .process blk)])
  obtain ⟨c, c', e, out, h1, h2, h3, h4, h5, h6⟩ := C78_level_bounded hF le_rfl hw hB hI hG
  refine ⟨c, c', e, out, h1, h2, h3, h4, h5, fun ch hc i hi => ?_⟩
  have := h6 ch (by rw [h4]; exact hc) i (by rw [h5]; exact hi)
  rw [mul_zero] at this
  exact abs_nonpos_iff.1 this

/-- **C80.** In particular the output falls silent: whatever happened before, once the input has been silent for as many samples as the
responses delivered before are long (less one), the output is exactly 0, also if fades are still running, or begin again. -/
theorem C80_tail_ends {F : RealFFT} (hF : Lawful F) {N : ℕ} {irs : ℕ → Buf} {maxBs : ℕ → ℕ} {specs : ℕ → ConvolverSpec}
    {pre post : List (List (Held Convolver) × Call)} {batch : List (Held Convolver)} {blk : Buf}
    (hw : WellFormed N (Serves F N) none (pre ++ post ++ [(batch, .process blk)])) (hB : BuiltFor F N irs maxBs specs (pre ++ post ++ [(batch, .process blk)]))
    (hI : InputAtMost 0 (post ++ [(batch, .process blk)])) (hL : ∀ b ∈ pre, ∀ g ∈ b.1, (irs g.id).n ≤ samplesIn post + 1) :
    ∃ c c' e out, ({} : Core Convolver).calls (convolverOps F) (pre ++ post) = some c ∧ c.call (convolverOps F) batch (.process blk) = some (c', e) ∧
      e.out = some out ∧ out.ch = N ∧ out.n = blk.n ∧ ∀ ch < N, ∀ i < blk.n, out.data ch i = 0 := by
  obtain ⟨G, hG⟩ := strongest (fun i o => responseGain (irs i) (specs i).outputRouting o) N (pre ++ post ++ [(batch, .process blk)])
  obtain ⟨c, c', e, out, h1, h2, h3, h4, h5, h6⟩ := C80_past_is_forgotten hF le_rfl hw hB hI hL hG
  refine ⟨c, c', e, out, h1, h2, h3, h4, h5, fun ch hc i hi => ?_⟩
  have := h6 ch (by rw [h4]; exact hc) i (by rw [h5]; exact hi)
  rw [mul_zero] at this
  exact abs_nonpos_iff.1 this

/-! ## C79 -/

section C79

variable [Arith] {u τ ε : ℝ} {L : ℕ}

/-- How much a convolver in floating point can raise the level at output `o`: the exact gain, and the error bound of C71. -/
noncomputable def floatGain (u τ ε : ℝ) (L K B : ℕ) (sch : List Layout) (ir : Buf) (spec : ConvolverSpec) (o : ℕ) : ℝ :=
  responseGain ir spec.outputRouting o + errorFactor u τ ε L K sch.length ir.ch * outputWeight B ir sch spec.outputRouting (fun _ => 1) o

/-- A convolver for response `i` that raises the level at most by `G` and has heard nothing louder than `X`, or nothing louder in the
last `n` samples, of which `W` are enough for the samples its output depends on. -/
def QuietR (F : RealFFT) (N : ℕ) (u τ ε : ℝ) (L : ℕ) (irs : ℕ → Buf) (maxBs : ℕ → ℕ) (specs : ℕ → ConvolverSpec) (Ks Bs : ℕ → ℕ) (schs : ℕ → List Layout)
    (X G : ℝ) (W n i : ℕ) (v : Convolver) : Prop :=
  Usable (irs i) (maxBs i) (specs i) N ∧ Cut (irs i) (maxBs i) (specs i) L (Ks i) (Bs i) (schs i) ∧
    (∀ o < N, floatGain u τ ε L (Ks i) (Bs i) (schs i) (irs i) (specs i) o ≤ G) ∧
    ∃ past, HeardR F (irs i) (maxBs i) (specs i) N past v ∧ ((∀ b ∈ past, AtMost X b) ∨ ((irs i).n + 2 ^ L + Bs i ≤ W + 1 ∧ Recent X N n past))

omit [Arith] in
theorem outputWeight_const (B : ℕ) (ir : Buf) (sch : List Layout) (r : List ℤ) (X : ℝ) (o : ℕ) :
    outputWeight B ir sch r (fun _ => X) o = outputWeight B ir sch r (fun _ => 1) o * X := by
  unfold outputWeight
  rw [sum_mul]
  refine sum_congr rfl fun c _ => ?_
  split
  · ring
  · simp

theorem quietR_ages (hA : Accurate u τ L) {F : RealFFT} (hF : Approx F ε) (g : GainArith) {N : ℕ} {irs : ℕ → Buf} {maxBs : ℕ → ℕ} {specs : ℕ → ConvolverSpec}
    {Ks Bs : ℕ → ℕ} {schs : ℕ → List Layout} {X G : ℝ} {W : ℕ} (hX : 0 ≤ X) :
    Ages (convolverOpsR F g) N 1 (AtMost X) (QuietR F N u τ ε L irs maxBs specs Ks Bs schs X G W) := by
  refine ⟨AtMost_samples X, ?_, ?_⟩
  · rintro n - i v blk v' o ⟨hU, hC, hG, past, hH, hp⟩ hb hx e
    obtain ⟨v2, outs, e2, sh, hh, hd⟩ := HeardR_feed hA hF hU hC hH [blk] (by simpa using hb)
    obtain ⟨rfl, rfl⟩ := one_block e e2
    refine ⟨hU, hC, hG, _, hh, ?_⟩
    rcases hp with hp | ⟨hl, hp⟩
    · left
      intro b hb'
      rcases List.mem_append.1 hb' with h | h
      · exact hp b h
      · rw [List.mem_singleton.1 h]; exact hx
    · right
      rw [Nat.one_mul]
      exact ⟨hl, Recent_snoc hX hp hb hx⟩
  · rintro n i v ⟨hU, hC, hG, past, hH, hp⟩ m
    exact ⟨hU, hC, hG, [], HeardR_fresh (HeardR_reset hH), Or.inl (by simp)⟩

theorem quietR_ages_loud (hA : Accurate u τ L) {F : RealFFT} (hF : Approx F ε) (g : GainArith) {N : ℕ} {irs : ℕ → Buf} {maxBs : ℕ → ℕ} {specs : ℕ → ConvolverSpec}
    {Ks Bs : ℕ → ℕ} {schs : ℕ → List Layout} {X G : ℝ} {W : ℕ} (hX : 0 ≤ X) :
    Ages (convolverOpsR F g) N 0 (fun _ => True) (fun n i v => (irs i).n + 2 ^ L + Bs i ≤ W + 1 ∧ QuietR F N u τ ε L irs maxBs specs Ks Bs schs X G W n i v) := by
  refine ⟨fun _ _ _ _ _ _ => trivial, ?_, ?_⟩
  · rintro n hn i v blk v' o ⟨hl, hU, hC, hG, past, hH, -⟩ hb - e
    obtain rfl := hn rfl
    obtain ⟨v2, outs, e2, sh, hh, hd⟩ := HeardR_feed hA hF hU hC hH [blk] (by simpa using hb)
    obtain ⟨rfl, rfl⟩ := one_block e e2
    exact ⟨hl, hU, hC, hG, _, hh, Or.inr ⟨hl, by rw [Nat.zero_mul]; exact Recent_zero hX _⟩⟩
  · rintro n i v ⟨hl, hU, hC, hG, past, hH, hp⟩ m
    exact ⟨hl, hU, hC, hG, [], HeardR_fresh (HeardR_reset hH), Or.inl (by simp)⟩

theorem quietR_limits (hA : Accurate u τ L) {F : RealFFT} (hF : Approx F ε) (g : GainArith) {N : ℕ} {irs : ℕ → Buf} {maxBs : ℕ → ℕ} {specs : ℕ → ConvolverSpec}
    {Ks Bs : ℕ → ℕ} {schs : ℕ → List Layout} {X G : ℝ} {W : ℕ} (hX : 0 ≤ X) (k : ℕ) :
    Limits (convolverOpsR F g) N k X (G * X) (QuietR F N u τ ε L irs maxBs specs Ks Bs schs X G W W) := by
  rintro i v blk v' o ⟨hU, hC, hG, past, hH, hp⟩ hb _ hx e
  obtain ⟨v2, outs, e2, sh, hh, hd⟩ := HeardR_feed hA hF hU hC hH [blk] (by simpa using hb)
  obtain ⟨rfl, rfl⟩ := one_block e e2
  intro ch hc j hj
  obtain ⟨s1, s2⟩ := (List.forall₂_cons.mp sh).1
  have hch : ch < N := by rw [← hb, s1]; exact hc
  have hj' : j < blk.n := by rw [s2]; exact hj
  have hlen : totalLen (past ++ [blk]) = totalLen past + blk.n := by rw [totalLen_append]; simp [totalLen]
  have hst : ∀ c < N, ∀ m, totalLen past + j < m + ((irs i).n + 2 ^ L + Bs i) → |stream (past ++ [blk]) c m| ≤ X := by
    intro c hc m hm
    rcases hp with hp | ⟨hl, hp⟩
    · exact Recent_snoc hX (Recent_all hX hH.1 hp (totalLen past)) hb hx c hc m (by omega)
    · exact Recent_snoc hX hp hb hx c hc m (by omega)
  have hpos : 0 < 2 ^ L := by positivity
  have := hd ch hch j (by simpa [totalLen] using hj') _ ⟨fun _ => X, fun c hc _ => ⟨hX, fun m hm _ => hst _ (route_of_valid hU.inputs c hc).2 m hm⟩, rfl⟩
  rw [show stream [o] ch j = o.data ch j by unfold stream; rw [if_pos hj], outputWeight_const] at this
  have h1 := routedConv_le hX hU.inputs (outR := (specs i).outputRouting) (x := stream (past ++ [blk])) (n := totalLen past + j)
    (fun c hc k hk hkn => hst c hc _ (by omega)) ch
  have h2 := mul_le_mul_of_nonneg_right (hG ch hch) hX
  unfold floatGain at h2
  have h3 := abs_add_le (o.data ch j - routedConv (irs i) (specs i).inputRouting (specs i).outputRouting (stream (past ++ [blk])) ch (totalLen past + j))
    (routedConv (irs i) (specs i).inputRouting (specs i).outputRouting (stream (past ++ [blk])) ch (totalLen past + j))
  rw [sub_add_cancel] at h3
  linarith

/-- **C81.** The same in floating point: once twice the largest partition (at most `2^L` samples), the block size of the first stage and the
length of the responses delivered before have been processed at level `X`, no rounding error made before is left in the output (all
sample rates being whole numbers of at most `R ≤ 2^22` Hz). -/
theorem C81_past_is_forgotten_in_float (hA : Accurate u τ L) {F : RealFFT} (hF : Approx F ε) {A : GainArith} {v : ℝ} (hv : AccurateGains A v) {N R : ℕ} (hR : R ≤ 2 ^ 22)
    {irs : ℕ → Buf} {maxBs : ℕ → ℕ} {specs : ℕ → ConvolverSpec} {Ks Bs : ℕ → ℕ} {schs : ℕ → List Layout} {X G : ℝ} (hX : 0 ≤ X)
    {pre post : List (List (Held Convolver) × Call)} {batch : List (Held Convolver)} {blk : Buf}
    (hw : WellFormed N (ServesR F N L) none (pre ++ post ++ [(batch, .process blk)]))
    (hB : BuiltForR F N L irs maxBs specs Ks Bs schs (pre ++ post ++ [(batch, .process blk)]))
    (hI : InputAtMost X (post ++ [(batch, .process blk)]))
    (hL : ∀ b ∈ pre, ∀ g ∈ b.1, (irs g.id).n + 2 ^ L + Bs g.id ≤ samplesIn post + 1)
    (hr : ∀ b ∈ pre ++ post, ∀ p m, b.2 = .prepare p m → ∃ r : ℕ, p.sampleRate = r ∧ r ≤ R)
    (hG : ∀ b ∈ pre ++ post ++ [(batch, .process blk)], ∀ g ∈ b.1, ∀ o < N,
      responseGain (irs g.id) (specs g.id).outputRouting o + errorFactor u τ ε L (Ks g.id) (schs g.id).length (irs g.id).ch *
        outputWeight (Bs g.id) (irs g.id) (schs g.id) (specs g.id).outputRouting (fun _ => 1) o ≤ G) :
    ∃ c c' e out, ({} : Core Convolver).calls (convolverOpsR F A) (pre ++ post) = some c ∧ c.call (convolverOpsR F A) batch (.process blk) = some (c', e) ∧
      e.out = some out ∧ out.ch = N ∧ out.n = blk.n ∧ AtMost ((1 + v) ^ (8 * R + 6) * (max 1 G * X)) out := by
  have h0 : 0 ≤ max X (G * X) := hX.trans (le_max_left _ _)
  have hT : 4 * R ≤ 2 ^ 24 := by omega
  have hnew : ∀ b ∈ pre ++ post ++ [(batch, Call.process blk)], ∀ g ∈ b.1, ∀ m,
      QuietR F N u τ ε L irs maxBs specs Ks Bs schs X G (samplesIn post) m g.id g.obj :=
    fun b hb g hg m => ⟨(hB b hb g hg).1, (hB b hb g hg).2.1, hG b hb g hg, [], HeardR_fresh (hB b hb g hg).2.2, Or.inl (by simp)⟩
  obtain ⟨c, c', e, out, h1, h2, h3, h4, h5, h6⟩ := level_recent (ops := convolverOpsR F A) (Len := fun n => n ≤ 4 * R) (gainLimits_accurate hv hT)
    (accepts_convolverR hA hF A N) h0 (quietR_ages_loud (irs := irs) (maxBs := maxBs) (specs := specs) (Ks := Ks) (Bs := Bs) (schs := schs) (G := G)
      (W := samplesIn post) hA hF A hX) (quietR_ages hA hF A hX) (fun n i v h => h.2) (quietR_limits hA hF A hX _) hw
    (fun b hb g hg m => ⟨hL b hb g hg, hnew b (by simp [hb]) g hg m⟩)
    (fun b hb g hg m => hnew b (by rw [List.append_assoc]; exact List.mem_append_right _ hb) g hg m) hI (by
      intro b hb p m hm n hn
      obtain ⟨r, e, hr⟩ := hr b hb p m hm
      rw [e, upper_exact (by omega)] at hn
      omega)
  refine ⟨c, c', e, out, h1, h2, h3, h4, h5, ?_⟩
  rw [max_level hX, show 2 * (4 * R) + 6 = 8 * R + 6 by ring] at h6
  exact h6

/-- **C81.** Also in floating point the output falls silent: exactly 0, without a residue of rounding errors. -/
theorem C81_tail_ends_in_float (hA : Accurate u τ L) {F : RealFFT} (hF : Approx F ε) {A : GainArith} {v : ℝ} (hv : AccurateGains A v) {N R : ℕ} (hR : R ≤ 2 ^ 22)
    {irs : ℕ → Buf} {maxBs : ℕ → ℕ} {specs : ℕ → ConvolverSpec} {Ks Bs : ℕ → ℕ} {schs : ℕ → List Layout}
    {pre post : List (List (Held Convolver) × Call)} {batch : List (Held Convolver)} {blk : Buf}
    (hw : WellFormed N (ServesR F N L) none (pre ++ post ++ [(batch, .process blk)]))
    (hB : BuiltForR F N L irs maxBs specs Ks Bs schs (pre ++ post ++ [(batch, .process blk)]))
    (hI : InputAtMost 0 (post ++ [(batch, .process blk)]))
    (hL : ∀ b ∈ pre, ∀ g ∈ b.1, (irs g.id).n + 2 ^ L + Bs g.id ≤ samplesIn post + 1)
    (hr : ∀ b ∈ pre ++ post, ∀ p m, b.2 = .prepare p m → ∃ r : ℕ, p.sampleRate = r ∧ r ≤ R) :
    ∃ c c' e out, ({} : Core Convolver).calls (convolverOpsR F A) (pre ++ post) = some c ∧ c.call (convolverOpsR F A) batch (.process blk) = some (c', e) ∧
      e.out = some out ∧ out.ch = N ∧ out.n = blk.n ∧ ∀ ch < N, ∀ i < blk.n, out.data ch i = 0 := by
  obtain ⟨G, hG⟩ := strongest (fun i o => responseGain (irs i) (specs i).outputRouting o + errorFactor u τ ε L (Ks i) (schs i).length (irs i).ch *
        outputWeight (Bs i) (irs i) (schs i) (specs i).outputRouting (fun _ => 1) o) N (pre ++ post ++ [(batch, .process blk)])
  obtain ⟨c, c', e, out, h1, h2, h3, h4, h5, h6⟩ := C81_past_is_forgotten_in_float hA hF hv hR le_rfl hw hB hI hL hr hG
  refine ⟨c, c', e, out, h1, h2, h3, h4, h5, fun ch hc i hi => ?_⟩
  have := h6 ch (by rw [h4]; exact hc) i (by rw [h5]; exact hi)
  rw [mul_zero, mul_zero] at this
  exact abs_nonpos_iff.1 this

/-- **C79.** The same in floating point: however long the engine has been running and whatever calls have been made (all sample rates
being whole numbers of at most `R ≤ 2^22` Hz), rounding errors do not build up. The output is at most the level of the input times the
gain of the strongest response — its exact gain plus the error bound of C71 — and times `(1 + v)^(8 R + 6)` for the fades. -/
theorem C79_level_bounded_in_float (hA : Accurate u τ L) {F : RealFFT} (hF : Approx F ε) {A : GainArith} {v : ℝ} (hv : AccurateGains A v) {N R : ℕ} (hR : R ≤ 2 ^ 22)
    {irs : ℕ → Buf} {maxBs : ℕ → ℕ} {specs : ℕ → ConvolverSpec} {Ks Bs : ℕ → ℕ} {schs : ℕ → List Layout} {X G : ℝ} (hX : 0 ≤ X)
    {hist : List (List (Held Convolver) × Call)} {batch : List (Held Convolver)} {blk : Buf}
    (hw : WellFormed N (ServesR F N L) none (hist ++ [(batch, .process blk)]))
    (hB : BuiltForR F N L irs maxBs specs Ks Bs schs (hist ++ [(batch, .process blk)]))
    (hI : InputAtMost X (hist ++ [(batch, .process blk)]))
    (hr : ∀ b ∈ hist, ∀ p m, b.2 = .prepare p m → ∃ r : ℕ, p.sampleRate = r ∧ r ≤ R)
    (hG : ∀ b ∈ hist ++ [(batch, .process blk)], ∀ g ∈ b.1, ∀ o < N,
      responseGain (irs g.id) (specs g.id).outputRouting o + errorFactor u τ ε L (Ks g.id) (schs g.id).length (irs g.id).ch *
        outputWeight (Bs g.id) (irs g.id) (schs g.id) (specs g.id).outputRouting (fun _ => 1) o ≤ G) :
    ∃ c c' e out, ({} : Core Convolver).calls (convolverOpsR F A) hist = some c ∧ c.call (convolverOpsR F A) batch (.process blk) = some (c', e) ∧
      e.out = some out ∧ out.ch = N ∧ out.n = blk.n ∧ AtMost ((1 + v) ^ (8 * R + 6) * (max 1 G * X)) out :=
  C81_past_is_forgotten_in_float hA hF hv hR hX (pre := []) hw hB hI (fun _ h => (by cases h)) hr hG

end C79

end Zones.Props
