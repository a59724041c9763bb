import Verif.Proofs.Engine
import Verif.Model.EngineFloat
import Verif.Proofs.EngineTrace
import Verif.Spec.ChannelCounts

/-! Engines with different numbers of channels. -/

open Zones.Model Zones.Spec

namespace Zones.Proofs

/-- Both undefined, or both defined and related. -/
inductive RelO {α β : Type} (R : α → β → Prop) : Option α → Option β → Prop
  | undef : RelO R none none
  | both {a : α} {b : β} (h : R a b) : RelO R (some a) (some b)

theorem RelO.bind {α β γ δ : Type} {R : α → β → Prop} {S : γ → δ → Prop} {x : Option α} {y : Option β} {f : α → Option γ} {g : β → Option δ}
    (h : RelO R x y) (hf : ∀ a b, R a b → RelO S (f a) (g b)) : RelO S (x.bind f) (y.bind g) := by
  cases h with
  | undef => exact .undef
  | both h => exact hf _ _ h

theorem RelO.map {α β γ δ : Type} {R : α → β → Prop} {S : γ → δ → Prop} {x : Option α} {y : Option β} {f : α → γ} {g : β → δ}
    (h : RelO R x y) (hf : ∀ a b, R a b → S (f a) (g b)) : RelO S (x.map f) (y.map g) := by
  cases h with
  | undef => exact .undef
  | both h => exact .both (hf _ _ h)

theorem RelO.refl {α : Type} {R : α → α → Prop} (hR : ∀ a, R a a) : ∀ x : Option α, RelO R x x
  | none => .undef
  | some a => .both (hR a)

theorem RelO.mono {α β : Type} {R S : α → β → Prop} (h : ∀ a b, R a b → S a b) {x : Option α} {y : Option β} (hx : RelO R x y) : RelO S x y := by
  cases hx with
  | undef => exact .undef
  | both hx => exact .both (h _ _ hx)

theorem RelO.foldlM {α α' β : Type} {R : α → α' → Prop} {f : α → β → Option α} {g : α' → β → Option α'} :
    ∀ (xs : List β), (∀ x ∈ xs, ∀ a b, R a b → RelO R (f a x) (g b x)) → ∀ a b, R a b → RelO R (xs.foldlM f a) (xs.foldlM g b)
  | [], _, a, b, h => .both h
  | x :: xs, hx, a, b, h => by
    rw [List.foldlM_cons, List.foldlM_cons]
    exact RelO.bind (hx x List.mem_cons_self a b h) fun a b h => RelO.foldlM xs (fun y hy => hx y (List.mem_cons_of_mem _ hy)) a b h

/-- `FirstChannels`, with the channel counts named. -/
structure Part (K M l : ℕ) (a b : Buf) : Prop where
  ch : a.ch = K
  ch' : b.ch = M
  n : a.n = l
  n' : b.n = l
  data : ∀ c < K, ∀ i < l, a.data c i = b.data c i

theorem Part.sub {K M n : ℕ} {a b : Buf} (h : Part K M n a b) (off len : ℕ) : RelO (Part K M len) (a.sub off len) (b.sub off len) := by
  unfold Buf.sub
  rw [h.n, h.n']
  split
  · rename_i hc
    refine .both ⟨h.ch, h.ch', rfl, rfl, fun c hc' i hi => h.data c hc' _ (by omega)⟩
  · exact .undef

theorem Part.clear {K M n : ℕ} (hK : K ≤ M) {a b : Buf} (h : Part K M n a b) : Part K M n a.clear b.clear := by
  refine ⟨h.ch, h.ch', h.n, h.n', fun c hc i hi => ?_⟩
  unfold Buf.clear
  simp only
  rw [if_pos ⟨by rw [h.ch]; exact hc, by rw [h.n]; exact hi⟩, if_pos ⟨by rw [h.ch']; omega, by rw [h.n']; exact hi⟩]

theorem Part.put {K M n m off : ℕ} (hK : K ≤ M) {a b s t : Buf} (h : Part K M n a b) (hs : Part K M m s t) : Part K M n (a.put off s) (b.put off t) := by
  refine ⟨h.ch, h.ch', h.n, h.n', fun c hc i hi => ?_⟩
  unfold Buf.put
  simp only [h.ch, h.ch', hs.n, hs.n']
  by_cases hh : off ≤ i ∧ i < off + m
  · rw [if_pos ⟨hc, hh⟩, if_pos ⟨by omega, hh⟩]
    exact hs.data c hc _ (by omega)
  · rw [if_neg fun h => hh h.2, if_neg fun h => hh h.2]
    exact h.data c hc i hi

theorem Part.putChannel {K M n : ℕ} {a b : Buf} (h : Part K M n a b) (c : ℕ) {s t : ℕ → ℝ} (hst : ∀ i < n, s i = t i) :
    Part K M n (a.putChannel c s) (b.putChannel c t) := by
  refine ⟨h.ch, h.ch', h.n, h.n', fun c' hc i hi => ?_⟩
  unfold Buf.putChannel
  simp only [h.n, h.n']
  by_cases hh : c' = c ∧ i < n
  · rw [if_pos hh, if_pos hh]; exact hst i hi
  · rw [if_neg hh, if_neg hh]; exact h.data c' hc i hi

theorem route_within {r : List ℤ} {n N : ℕ} (h : ValidRouting r n N) {c : ℕ} (hc : c < n) : ∃ i < N, Convolver.route r c = some i := by
  obtain ⟨z, hz, h0, h1⟩ := h c hc
  refine ⟨z.toNat, by omega, ?_⟩
  unfold Convolver.route
  rw [hz]
  simp only
  rw [if_pos h0]

/-- What is gathered does not depend on the other channels. -/
theorem gather_part {N K M n : ℕ} (hNK : N ≤ K) (hKM : K ≤ M) {s : Convolver} (hr : RoutedWithin N s) {a b : Buf} (h : Part K M n a b) {c : ℕ} (hc : c < s.numConv) (rs : Buf) :
    Convolver.gatherOne s a rs c = Convolver.gatherOne s b rs c := by
  obtain ⟨i, hi, e⟩ := route_within hr.1 hc
  unfold Convolver.gatherOne
  rw [e]
  simp only [Option.bind_eq_bind, Option.bind_some]
  unfold Buf.single
  rw [if_pos (show i < a.ch by rw [h.ch]; omega), if_pos (show i < b.ch by rw [h.ch']; omega)]
  simp only [Option.bind_some, h.n, h.n']
  congr 1
  funext dst
  show some _ = some _
  congr 2
  unfold Buf.copyFrom
  funext j
  simp only
  split
  · rename_i hj
    exact h.data i (by omega) j (by omega)
  · rfl

theorem foldlM_ext_mem {α β : Type} {f g : α → β → Option α} : ∀ (xs : List β), (∀ x ∈ xs, ∀ a, f a x = g a x) → ∀ a, xs.foldlM f a = xs.foldlM g a
  | [], _, _ => rfl
  | x :: xs, h, a => by
    rw [List.foldlM_cons, List.foldlM_cons, h x List.mem_cons_self]
    congr 1
    funext y
    exact foldlM_ext_mem xs (fun z hz => h z (List.mem_cons_of_mem _ hz)) y

theorem scatter_part [Arith] {N K M n : ℕ} (hNK : N ≤ K) (hKM : K ≤ M) {s : Convolver} (hr : RoutedWithin N s) {a b : Buf} (h : Part K M n a b) {c : ℕ} (hc : c < s.numConv) (rs : Buf) :
    RelO (Part K M n) (Convolver.scatterOneR s rs a c) (Convolver.scatterOneR s rs b c) := by
  obtain ⟨o, ho, e⟩ := route_within hr.2 hc
  unfold Convolver.scatterOneR
  rw [e]
  simp only [Option.bind_eq_bind, Option.bind_some]
  rw [show a.single o = some ⟨1, a.n, fun _ i => a.data o i⟩ from if_pos (by rw [h.ch]; omega),
    show b.single o = some ⟨1, b.n, fun _ i => b.data o i⟩ from if_pos (by rw [h.ch']; omega)]
  simp only [Option.bind_some]
  refine RelO.bind (RelO.refl (R := Eq) (fun _ => rfl) (rs.single c)) fun src src' he => ?_
  subst he
  unfold Buf.addR
  by_cases h1 : (1 : ℕ) = src.ch
  · rw [if_pos h1, if_pos h1]
    simp only [Option.bind_some]
    refine .both (h.putChannel o fun i hi => ?_)
    simp only [h.n, h.n']
    by_cases hh : 0 < 1 ∧ i < min n src.n
    · rw [if_pos hh, if_pos hh, h.data o (by omega) i hi]
    · rw [if_neg hh, if_neg hh, h.data o (by omega) i hi]
  · rw [if_neg h1, if_neg h1]
    exact .undef

/-- The convolver's part of the two runs: the same new state, and outputs that agree on the common channels. -/
def StepPart (N K M n : ℕ) (s : Convolver) (r r' : Convolver × Buf) : Prop :=
  r.1 = r'.1 ∧ Part K M n r.2 r'.2 ∧ r.1.spec = s.spec ∧ r.1.numConv = s.numConv ∧ r.1.numSamples = s.numSamples

theorem body_part [Arith] (F : RealFFT) {N K M n : ℕ} (hNK : N ≤ K) (hKM : K ≤ M) {s : Convolver} (hr : RoutedWithin N s) {a b : Buf} (h : Part K M n a b) (done k : ℕ) :
    RelO (StepPart N K M n s) (s.bodyR F a done k) (s.bodyR F b done k) := by
  unfold Convolver.bodyR
  simp only [Option.bind_eq_bind]
  refine RelO.bind (h.sub done k) fun x y hxy => ?_
  refine RelO.bind (RelO.refl (R := Eq) (fun _ => rfl) (s.routing.sub 0 k)) fun rs rs' he => ?_
  subst he
  rw [foldlM_ext_mem (List.range s.numConv) (fun c hc rs => gather_part hNK hKM hr hxy (List.mem_range.mp hc) rs) rs]
  refine RelO.bind (RelO.refl (R := Eq) (fun _ => rfl) _) fun g g' he => ?_
  subst he
  refine RelO.bind (RelO.refl (R := Eq) (fun _ => rfl) _) fun r r' he => ?_
  subst he
  refine RelO.bind (RelO.foldlM (R := Part K M k) (List.range s.numConv) (fun c hc u v huv => scatter_part hNK hKM hr huv (List.mem_range.mp hc) r.2) _ _ (hxy.clear hKM)) fun u v huv => ?_
  exact .both ⟨rfl, h.put hKM huv, rfl, rfl, rfl⟩

theorem loop_part [Arith] (F : RealFFT) {N K M n : ℕ} (hNK : N ≤ K) (hKM : K ≤ M) : ∀ (fuel : ℕ) {s : Convolver}, RoutedWithin N s → ∀ {a b : Buf}, Part K M n a b → ∀ done : ℕ,
    RelO (StepPart N K M n s) (s.loopR F fuel a done) (s.loopR F fuel b done)
  | 0, s, hr, a, b, h, done => by
    unfold Convolver.loopR
    rw [h.n, h.n']
    split
    · exact .undef
    · exact .both ⟨rfl, h, rfl, rfl, rfl⟩
  | fuel + 1, s, hr, a, b, h, done => by
    unfold Convolver.loopR
    rw [h.n, h.n']
    split
    · simp only [Option.bind_eq_bind]
      refine RelO.bind (body_part F hNK hKM hr h done _) fun r r' ⟨h1, h2, h3, h4, h5⟩ => ?_
      have hr' : RoutedWithin N r.1 := by
        unfold RoutedWithin
        rw [h3, h4]
        exact hr
      rw [← h1]
      refine (loop_part F hNK hKM fuel hr' h2 _).mono fun q q' ⟨k1, k2, k3, k4, k5⟩ => ⟨k1, k2, k3.trans h3, k4.trans h4, k5.trans h5⟩
    · exact .both ⟨rfl, h, rfl, rfl, rfl⟩

theorem process_part [Arith] (F : RealFFT) {N K M n : ℕ} (hNK : N ≤ K) (hKM : K ≤ M) {s : Convolver} (hr : RoutedWithin N s) {a b : Buf} (h : Part K M n a b) :
    RelO (StepPart N K M n s) (s.processR F a) (s.processR F b) := by
  unfold Convolver.processR
  rw [h.n, h.n']
  exact loop_part F hNK hKM n (s := { s with routing := s.routing.clear }) hr h 0

/-! ## The engine -/

variable {V : Type}

/-- What the engine needs of its convolvers. -/
structure Narrow (ops : ConvOps V) (N M : ℕ) (Good : V → Prop) : Prop where
  process : ∀ {K n : ℕ} {v : V} {a b : Buf}, N ≤ K → K ≤ M → Good v → Part K M n a b →
    RelO (fun r r' => r.1 = r'.1 ∧ Part K M n r.2 r'.2 ∧ Good r.1) (ops.process v a) (ops.process v b)
  reset : ∀ {v : V}, Good v → Good (ops.reset v)

/-- The engine with another fade buffer and another format. -/
def resize (c : Core V) (b : Buf) (p : Option ProcSpec) : Core V := { c with fadeBuf := b, spec := p }

/-- All the convolvers an engine holds. -/
def HoldsPart (Good : V → Prop) (c : Core V) : Prop :=
  (∀ h, c.active = some h → Good h.obj) ∧ (∀ h, c.fade = some h → Good h.obj) ∧ ∀ h, c.pending = some h → Good h.obj

theorem resize_handle (ops : ConvOps V) (c : Core V) (b : Buf) (p : Option ProcSpec) (g : Held V) :
    (resize c b p).handle ops g = (resize (c.handle ops g).1 b p, (c.handle ops g).2) := by
  cases ha : c.active with
  | none => rw [handle_none ha, handle_none (c := resize c b p) ha]; rfl
  | some a =>
    cases hf : c.fade with
    | none => rw [handle_begin ha hf, handle_begin (c := resize c b p) ha hf]; rfl
    | some f => rw [handle_fading ha hf, handle_fading (c := resize c b p) ha hf]; rfl

theorem handle_keeps (ops : ConvOps V) (c : Core V) (g : Held V) : (c.handle ops g).1.fadeBuf = c.fadeBuf := by
  cases ha : c.active with
  | none => rw [handle_none ha]
  | some a =>
    cases hf : c.fade with
    | none => rw [handle_begin ha hf]; rfl
    | some f => rw [handle_fading ha hf]

theorem handle_holds {ops : ConvOps V} {Good : V → Prop} {c : Core V} (h : HoldsPart Good c) {g : Held V} (hg : Good g.obj) : HoldsPart Good (c.handle ops g).1 := by
  obtain ⟨h1, h2, h3⟩ := h
  cases ha : c.active with
  | none =>
    rw [handle_none ha]
    exact ⟨fun h e => (by cases e; exact hg), h2, h3⟩
  | some a =>
    cases hf : c.fade with
    | none =>
      rw [handle_begin ha hf]
      exact ⟨h1, fun h e => (by cases e; exact hg), fun h e => (by cases e)⟩
    | some f =>
      rw [handle_fading ha hf]
      exact ⟨h1, h2, fun h e => (by cases e; exact hg)⟩

theorem resize_service (ops : ConvOps V) (b : Buf) (p : Option ProcSpec) : ∀ (batch : List (Held V)) (c : Core V),
    (resize c b p).service ops batch = resize (c.service ops batch) b p
  | [], _ => rfl
  | g :: gs, c => by
    show Core.service ops ((resize c b p).handle ops g).1 gs = _
    rw [resize_handle]
    exact resize_service ops b p gs _

theorem service_keeps (ops : ConvOps V) : ∀ (batch : List (Held V)) (c : Core V), (c.service ops batch).fadeBuf = c.fadeBuf
  | [], _ => rfl
  | g :: gs, c => (service_keeps ops gs _).trans (handle_keeps ops c g)

theorem service_holds {ops : ConvOps V} {Good : V → Prop} : ∀ (batch : List (Held V)) {c : Core V}, HoldsPart Good c → (∀ g ∈ batch, Good g.obj) → HoldsPart Good (c.service ops batch)
  | [], _, h, _ => h
  | _ :: gs, _, h, hg => service_holds gs (handle_holds h (hg _ List.mem_cons_self)) fun g hg' => hg g (List.mem_cons_of_mem _ hg')

theorem resize_resetBody (ops : ConvOps V) (c : Core V) (b : Buf) (p : Option ProcSpec) :
    (resize c b p).resetBody ops = (resize (c.resetBody ops).1 b.clear p, (c.resetBody ops).2) := by
  unfold Core.resetBody resize
  simp only
  cases c.pending <;> cases c.fade <;> rfl

theorem resetBody_keeps (ops : ConvOps V) (c : Core V) : (c.resetBody ops).1.fadeBuf = c.fadeBuf.clear := by
  unfold Core.resetBody
  simp only
  cases c.pending <;> cases c.fade <;> rfl

theorem resetBody_holds {ops : ConvOps V} {Good : V → Prop} (hR : ∀ {v}, Good v → Good (ops.reset v)) {c : Core V} (h : HoldsPart Good c) : HoldsPart Good (c.resetBody ops).1 := by
  obtain ⟨h1, h2, h3⟩ := h
  unfold Core.resetBody
  simp only
  have key : ∀ x : Option (Held V), (∀ h, x = some h → Good h.obj) → ∀ h, x.map (fun h => (⟨h.id, ops.reset h.obj⟩ : Held V)) = some h → Good h.obj := by
    intro x hx h e
    obtain ⟨y, hy, e⟩ := Option.map_eq_some_iff.mp e
    rw [← e]
    exact hR (hx y hy)
  cases hp : c.pending with
  | some q => exact ⟨key (some q) fun h e => (by cases e; exact h3 _ hp), h2, fun h e => (by cases e)⟩
  | none =>
    cases hf : c.fade with
    | some f => exact ⟨key (some f) fun h e => (by cases e; exact h2 _ hf), fun h e => (by cases e), fun h e => (by cases e)⟩
    | none => exact ⟨key _ h1, fun h e => (by cases e), fun h e => (by cases e)⟩

theorem resize_endFade (ops : ConvOps V) (c : Core V) (b : Buf) (p : Option ProcSpec) :
    (resize c b p).endFade ops = (resize (c.endFade ops).1 b p, (c.endFade ops).2) := by
  unfold Core.endFade resize
  simp only
  split
  · rfl
  · cases c.pending <;> rfl

theorem endFade_keeps (ops : ConvOps V) (c : Core V) : (c.endFade ops).1.fadeBuf = c.fadeBuf := by
  unfold Core.endFade
  simp only
  split
  · rfl
  · cases c.pending <;> rfl

theorem endFade_holds {ops : ConvOps V} {Good : V → Prop} {c : Core V} (h : HoldsPart Good c) : HoldsPart Good (c.endFade ops).1 := by
  obtain ⟨h1, h2, h3⟩ := h
  unfold Core.endFade
  simp only
  split
  · exact ⟨h1, h2, h3⟩
  · cases hp : c.pending with
    | none => exact ⟨h2, fun h e => (by cases e), fun h e => (by cases e)⟩
    | some q => exact ⟨h2, fun h e => (by cases e; exact h3 _ hp), fun h e => (by cases e)⟩

theorem Part.scale {K M n : ℕ} (hKM : K ≤ M) {a b : Buf} (h : Part K M n a b) (A : GainArith) (gain : ℕ → ℝ) : Part K M n (a.scale A gain) (b.scale A gain) := by
  refine ⟨h.ch, h.ch', h.n, h.n', fun c hc i hi => ?_⟩
  unfold Buf.scale
  simp only
  rw [if_pos ⟨by rw [h.ch]; exact hc, by rw [h.n]; exact hi⟩, if_pos ⟨by rw [h.ch']; omega, by rw [h.n']; exact hi⟩, h.data c hc i hi]

theorem Part.multiplyBy {K M n : ℕ} (hKM : K ≤ M) {a b : Buf} (h : Part K M n a b) (A : GainArith) (s : Smooth) :
    Part K M n (a.multiplyBy A s).1 (b.multiplyBy A s).1 ∧ (a.multiplyBy A s).2 = (b.multiplyBy A s).2 := by
  unfold Buf.multiplyBy
  split
  · exact ⟨h.scale hKM A _, by rw [h.n, h.n']⟩
  · exact ⟨h.scale hKM A _, rfl⟩

theorem Part.mix {K M n : ℕ} (hKM : K ≤ M) {a b s t : Buf} (h : Part K M n a b) (hs : Part K M n s t) (A : GainArith) : RelO (Part K M n) (a.mix A s) (b.mix A t) := by
  unfold Buf.mix
  rw [if_pos (h.ch.trans hs.ch.symm), if_pos (h.ch'.trans hs.ch'.symm)]
  refine .both ⟨h.ch, h.ch', h.n, h.n', fun c hc i hi => ?_⟩
  simp only
  rw [if_pos ⟨by rw [h.ch]; exact hc, by rw [h.n, hs.n]; omega⟩, if_pos ⟨by rw [h.ch']; omega, by rw [h.n', hs.n']; omega⟩, h.data c hc i hi, hs.data c hc i hi]

theorem runHeld_part {ops : ConvOps V} {N M : ℕ} {Good : V → Prop} (hW : Narrow ops N M Good) {K n : ℕ} (hNK : N ≤ K) (hKM : K ≤ M) {h : Held V} (hg : Good h.obj) {a b : Buf}
    (hp : Part K M n a b) : RelO (fun r r' => r.1 = r'.1 ∧ Part K M n r.2 r'.2 ∧ Good r.1.obj) (Core.runHeld ops h a) (Core.runHeld ops h b) :=
  RelO.map (hW.process hNK hKM hg hp) fun r r' ⟨h1, h2, h3⟩ => ⟨by rw [h1], h2, h3⟩

theorem runSlot_part {ops : ConvOps V} {N M : ℕ} {Good : V → Prop} (hW : Narrow ops N M Good) {K n : ℕ} (hNK : N ≤ K) (hKM : K ≤ M) : ∀ {x : Option (Held V)},
    (∀ h, x = some h → Good h.obj) → ∀ {a b : Buf}, Part K M n a b →
    RelO (fun r r' => r.1 = r'.1 ∧ Part K M n r.2 r'.2 ∧ ∀ h, r.1 = some h → Good h.obj) (Core.runSlot ops x a) (Core.runSlot ops x b)
  | none, _, _, _, hp => .both ⟨rfl, hp, fun h e => (by cases e)⟩
  | some _, hg, _, _, hp => RelO.map (runHeld_part hW hNK hKM (hg _ rfl) hp) fun r r' ⟨h1, h2, h3⟩ => ⟨by rw [h1], h2, fun h e => (by cases e; exact h3)⟩

/-- The two engines: `K` channels and `M` channels. -/
structure Resized (Good : V → Prop) (K M : ℕ) (c c' : Core V) : Prop where
  same : ∃ b p, c' = resize c b p
  holds : HoldsPart Good c
  ch : c.fadeBuf.ch = K
  ch' : c'.fadeBuf.ch = M
  n : c'.fadeBuf.n = c.fadeBuf.n

theorem fadeStep_part {ops : ConvOps V} {N M : ℕ} {Good : V → Prop} (hW : Narrow ops N M Good) {K n : ℕ} (hNK : N ≤ K) (hKM : K ≤ M) {c c' : Core V} (h : Resized Good K M c c')
    {f : Held V} (hf : c.fade = some f) {a b : Buf} (hp : Part K M n a b) :
    RelO (fun r r' => Resized Good K M r.1 r'.1 ∧ Part K M n r.2 r'.2) (c.fadeStep ops f a) (c'.fadeStep ops f b) := by
  obtain ⟨⟨fb, p, rfl⟩, ⟨h1, h2, h3⟩, hc, hc', hn⟩ := h
  unfold Core.fadeStep
  rw [show (resize c fb p).strategy = c.strategy from rfl]
  cases c.strategy with
  | crossfade =>
    simp only
    unfold Core.crossfadeStep
    simp only [Option.bind_eq_bind]
    have hsub : RelO (fun x y => x.ch = K ∧ y.ch = M ∧ x.n = n ∧ y.n = n) (c.fadeBuf.sub 0 a.n) ((resize c fb p).fadeBuf.sub 0 b.n) := by
      unfold Buf.sub
      rw [hn, hp.n, hp.n']
      split
      · exact .both ⟨hc, hc', rfl, rfl⟩
      · exact .undef
    refine RelO.bind hsub fun x y ⟨x1, x2, x3, x4⟩ => ?_
    have hcopy : Part K M n (x.copyFrom a) (y.copyFrom b) := by
      refine ⟨x1, x2, x3, x4, fun ch hch i hi => ?_⟩
      unfold Buf.copyFrom
      simp only
      rw [if_pos ⟨by rw [x1, hp.ch]; omega, by rw [x3, hp.n]; omega⟩, if_pos ⟨by rw [x2, hp.ch']; omega, by rw [x4, hp.n']; omega⟩]
      exact hp.data ch hch i hi
    refine RelO.bind (runSlot_part hW hNK hKM (x := c.active) h1 hp) fun r r' ⟨e1, p1, g1⟩ => ?_
    refine RelO.bind (runHeld_part hW hNK hKM (h2 f hf) hcopy) fun q q' ⟨e2, p2, g2⟩ => ?_
    obtain ⟨m1, s1⟩ := p1.multiplyBy hKM ops.gains c.sOut
    obtain ⟨m2, s2⟩ := p2.multiplyBy hKM ops.gains c.sIn
    refine RelO.bind (m1.mix hKM m2 ops.gains) fun u v huv => ?_
    refine .both ⟨⟨⟨(resize c fb p).fadeBuf.put 0 (q'.2.multiplyBy ops.gains (resize c fb p).sIn).1, p, ?_⟩, ⟨g1, fun h e => (by cases e; exact g2), h3⟩, hc, hc', hn⟩, huv⟩
    unfold resize
    simp only [← e1, ← e2, s1, s2]
  | inOut =>
    simp only
    unfold Core.inOutStep
    rw [show (resize c fb p).sOut = c.sOut from rfl]
    split
    · simp only [Option.bind_eq_bind]
      refine RelO.bind (runSlot_part hW hNK hKM (x := c.active) h1 hp) fun r r' ⟨e1, p1, g1⟩ => ?_
      obtain ⟨m1, s1⟩ := p1.multiplyBy hKM ops.gains c.sOut
      refine .both ⟨⟨⟨fb, p, ?_⟩, ⟨g1, h2, h3⟩, hc, hc', hn⟩, m1⟩
      unfold resize
      simp only [← e1, s1]
    · simp only [Option.bind_eq_bind]
      refine RelO.bind (runHeld_part hW hNK hKM (h2 f hf) hp) fun q q' ⟨e2, p2, g2⟩ => ?_
      obtain ⟨m2, s2⟩ := p2.multiplyBy hKM ops.gains c.sIn
      refine .both ⟨⟨⟨fb, p, ?_⟩, ⟨h1, fun h e => (by cases e; exact g2), h3⟩, hc, hc', hn⟩, m2⟩
      unfold resize
      simp only [← e2, s2]

theorem processBody_part {ops : ConvOps V} {N M : ℕ} {Good : V → Prop} (hW : Narrow ops N M Good) {K n : ℕ} (hNK : N ≤ K) (hKM : K ≤ M) {c c' : Core V} (h : Resized Good K M c c')
    {a b : Buf} (hp : Part K M n a b) :
    RelO (fun r r' => Resized Good K M r.1 r'.1 ∧ ∃ o o', r.2.out = some o ∧ r'.2.out = some o' ∧ Part K M n o o') (c.processBody ops a) (c'.processBody ops b) := by
  obtain ⟨fb, p, e⟩ := h.same
  have ef : c'.fade = c.fade := by rw [e]; rfl
  unfold Core.processBody
  rw [ef]
  cases hf : c.fade with
  | some f =>
    simp only
    refine RelO.map (fadeStep_part hW hNK hKM h hf hp) fun r r' ⟨h', hp'⟩ => ⟨?_, _, _, rfl, rfl, hp'⟩
    obtain ⟨⟨b', p', e'⟩, hh, hc, hc', hn⟩ := h'
    simp only
    refine ⟨⟨b', p', by rw [e', resize_endFade]⟩, endFade_holds hh, ?_, ?_, ?_⟩
    · rw [endFade_keeps]; exact hc
    · rw [endFade_keeps]; exact hc'
    · rw [endFade_keeps, endFade_keeps]; exact hn
  | none =>
    simp only
    have ea : c'.active = c.active := by rw [e]; rfl
    rw [ea]
    refine RelO.map (runSlot_part hW hNK hKM (x := c.active) h.holds.1 hp) fun r r' ⟨e1, p1, g1⟩ => ⟨?_, _, _, rfl, rfl, p1⟩
    refine ⟨⟨fb, p, ?_⟩, ⟨g1, fun h e => (by cases e), h.holds.2.2⟩, h.ch, h.ch', h.n⟩
    rw [e, ← e1]
    unfold resize
    simp only [hf]

/-- Before the first `prepare` the engine is empty; afterwards it is `Resized`. -/
def SizedAlike (Good : V → Prop) (M : ℕ) : Option (ℕ × ℕ) → Core V → Core V → Prop
  | none, c, c' => c.active = none ∧ c.fade = none ∧ c.pending = none ∧ ∃ b p, c' = resize c b p
  | some (K, _), c, c' => Resized Good K M c c'

/-- The formats a history goes through. -/
def nextFormat (S : Option (ℕ × ℕ)) : Call → Option (ℕ × ℕ)
  | .prepare p _ => some (p.numChannels, p.maximumBlockSize)
  | _ => S

theorem reset_part {ops : ConvOps V} {N M : ℕ} {Good : V → Prop} (hW : Narrow ops N M Good) {K : ℕ} {c c' : Core V} (h : Resized Good K M c c') :
    Resized Good K M (c.resetBody ops).1 (c'.resetBody ops).1 := by
  obtain ⟨⟨b, p, e⟩, hh, h1, h2, h3⟩ := h
  refine ⟨⟨b.clear, p, by rw [e, resize_resetBody]⟩, resetBody_holds (Good := Good) (fun hv => hW.reset hv) hh, ?_, ?_, ?_⟩
  · rw [resetBody_keeps]; exact h1
  · rw [resetBody_keeps]; exact h2
  · rw [resetBody_keeps, resetBody_keeps]; exact h3

theorem service_part {ops : ConvOps V} {M : ℕ} {Good : V → Prop} {K : ℕ} {c c' : Core V} (h : Resized Good K M c c') {batch : List (Held V)} (hg : ∀ g ∈ batch, Good g.obj) :
    Resized Good K M (c.service ops batch) (c'.service ops batch) := by
  obtain ⟨⟨b, p, e⟩, hh, h1, h2, h3⟩ := h
  refine ⟨⟨b, p, by rw [e, resize_service]⟩, service_holds batch hh hg, ?_, ?_, ?_⟩
  · rw [service_keeps]; exact h1
  · rw [service_keeps]; exact h2
  · rw [service_keeps, service_keeps]; exact h3

theorem resetFade_part {M : ℕ} {Good : V → Prop} {K : ℕ} {c c' : Core V} (h : Resized Good K M c c') : Resized Good K M c.resetFade c'.resetFade := by
  obtain ⟨⟨b, p, e⟩, hh, h1, h2, h3⟩ := h
  exact ⟨⟨b, p, by rw [e]; rfl⟩, hh, h1, h2, h3⟩

theorem clear_part {ops : ConvOps V} {N M : ℕ} {Good : V → Prop} (hW : Narrow ops N M Good) {K : ℕ} {c c' : Core V} (h : Resized Good K M c c') :
    Resized Good K M (c.clearBody ops).1 (c'.clearBody ops).1 := by
  obtain ⟨⟨b, p, e⟩, hh, h1, h2, h3⟩ := reset_part hW h
  refine ⟨⟨b, p, ?_⟩, ⟨fun h e => (by cases e), hh.2.1, fun h e => (by cases e)⟩, h1, h2, h3⟩
  unfold Core.clearBody
  simp only
  rw [e]
  rfl

theorem resetBody_empty {ops : ConvOps V} {c : Core V} (h1 : c.active = none) (h2 : c.fade = none) (h3 : c.pending = none) :
    (c.resetBody ops).1 = { c with fadeBuf := c.fadeBuf.clear } := by
  unfold Core.resetBody
  simp only [h1, h2, h3, Option.map_none]

/-- One call of both engines. -/
theorem call_part {ops : ConvOps V} {N M : ℕ} {Good : V → Prop} (hW : Narrow ops N M Good) {S : Option (ℕ × ℕ)} {c c' : Core V} (h : SizedAlike Good M S c c')
    {batch : List (Held V)} {k : Call} {rest : List (List (Held V) × Call)} (hw : ChangesChannels N M Good S ((batch, k) :: rest)) :
    ChangesChannels N M Good (nextFormat S k) rest ∧
      RelO (fun r r' => SizedAlike Good M (nextFormat S k) r.1 r'.1 ∧ List.Forall₂ (fun o o' => FirstChannels o o') r.2.out.toList r'.2.out.toList ∧
        List.Forall₂ (fun b o => b.ch = o.ch ∧ b.n = o.n) (blocksIn [(batch, k)]) r.2.out.toList) (c.call ops batch k) (c'.call ops batch (widenCall M k)) := by
  obtain ⟨hg, hn, hk⟩ := hw
  cases k with
  | process blk =>
    obtain ⟨⟨hN, hM⟩, hb, hrest⟩ := hk
    refine ⟨hrest, ?_⟩
    have hpart : Part blk.ch M blk.n blk (widen M blk) := ⟨rfl, rfl, rfl, rfl, fun c hc i _ => by
      unfold widen
      simp only
      rw [if_pos hc]⟩
    cases S with
    | none =>
      obtain ⟨h1, h2, h3, b, p, e⟩ := h
      obtain rfl := hn rfl fun _ _ => nofun
      have e1 : c.call ops [] (.process blk) = some ({ c with active := none }, { out := some blk }) := by
        show c.processBody ops blk = _
        unfold Core.processBody
        rw [h2]
        simp only
        rw [h1]
        rfl
      have e2 : c'.call ops [] (.process (widen M blk)) = some ({ c' with active := none }, { out := some (widen M blk) }) := by
        show c'.processBody ops _ = _
        unfold Core.processBody
        rw [show c'.fade = none by rw [e]; exact h2]
        simp only
        rw [show c'.active = none by rw [e]; exact h1]
        rfl
      rw [e1, show c'.call ops [] (widenCall M (.process blk)) = _ from e2]
      refine .both ⟨⟨rfl, h2, h3, b, p, by rw [e]; rfl⟩, .cons ⟨hM, rfl, hpart.data⟩ .nil, .cons ⟨rfl, rfl⟩ .nil⟩
    | some q =>
      obtain ⟨K, m⟩ := q
      obtain ⟨hK, _⟩ := hb K m rfl
      have h : Resized Good K M c c' := h
      rw [hK] at hN hM hpart
      refine (processBody_part hW hN hM (service_part (ops := ops) h hg) hpart).mono fun r r' ⟨hr, o, o', eo, eo', hp⟩ => ⟨hr, ?_, ?_⟩
      · rw [eo, eo']
        exact .cons ⟨by rw [hp.ch, hp.ch']; exact hM, by rw [hp.n, hp.n'], fun c hc i hi => hp.data c (by rw [hp.ch] at hc; exact hc) i (by rw [hp.n] at hi; exact hi)⟩ .nil
      · rw [eo]
        exact .cons ⟨by rw [hp.ch]; exact hK, hp.n.symm⟩ .nil
  | reset =>
    refine ⟨hk, ?_⟩
    cases S with
    | none =>
      obtain ⟨h1, h2, h3, b, p, e⟩ := h
      obtain rfl := hn rfl fun _ _ => nofun
      refine .both ⟨?_, .nil, .nil⟩
      show SizedAlike Good M none (c.resetFade.resetBody ops).1 (c'.resetFade.resetBody ops).1
      rw [e, show (resize c b p).resetFade = resize c.resetFade b p from rfl, resize_resetBody, resetBody_empty (c := c.resetFade) h1 h2 h3]
      exact ⟨h1, h2, h3, _, _, rfl⟩
    | some q =>
      have h : Resized Good q.1 M c c' := h
      exact .both ⟨reset_part hW (service_part (resetFade_part h) hg), .nil, .nil⟩
  | clear =>
    refine ⟨hk, ?_⟩
    cases S with
    | none =>
      obtain ⟨h1, h2, h3, b, p, e⟩ := h
      obtain rfl := hn rfl fun _ _ => nofun
      refine .both ⟨?_, .nil, .nil⟩
      show SizedAlike Good M none (c.resetFade.clearBody ops).1 (c'.resetFade.clearBody ops).1
      unfold Core.clearBody
      simp only
      rw [e, show (resize c b p).resetFade = resize c.resetFade b p from rfl, resize_resetBody, resetBody_empty (c := c.resetFade) h1 h2 h3]
      exact ⟨rfl, h2, rfl, b.clear, p, rfl⟩
    | some q =>
      have h : Resized Good q.1 M c c' := h
      exact .both ⟨clear_part hW (service_part (resetFade_part h) hg), .nil, .nil⟩
  | prepare p g =>
    obtain ⟨⟨hN, hM, hv⟩, hrest⟩ := hk
    refine ⟨hrest, ?_⟩
    have hhead : Resized Good p.numChannels M (c.callHead (.prepare p g)) (c'.callHead (widenCall M (.prepare p g))) := by
      have hsame : ∃ b q, c' = resize c b q := by
        cases S with
        | none => exact h.2.2.2
        | some q => exact Resized.same h
      have hholds : HoldsPart Good c := by
        cases S with
        | none =>
          obtain ⟨h1, h2, h3, _⟩ := h
          exact ⟨fun h e => (by rw [h1] at e; cases e), fun h e => (by rw [h2] at e; cases e), fun h e => (by rw [h3] at e; cases e)⟩
        | some q => exact Resized.holds h
      obtain ⟨b, q, e⟩ := hsame
      refine ⟨⟨⟨M, p.maximumBlockSize, g⟩, some { p with numChannels := M }, ?_⟩, hholds, rfl, rfl, rfl⟩
      rw [e]
      rfl
    exact .both ⟨reset_part hW (service_part hhead hg), .nil, .nil⟩

/-- The two engines, call by call. -/
theorem perform_part {ops : ConvOps V} {N M : ℕ} {Good : V → Prop} (hW : Narrow ops N M Good) : ∀ (hist : List (List (Held V) × Call)) {S : Option (ℕ × ℕ)} {c c' : Core V},
    SizedAlike Good M S c c' → ChangesChannels N M Good S hist →
    RelO (fun r r' => (∃ S', SizedAlike Good M S' r.1 r'.1) ∧ List.Forall₂ FirstChannels r.2 r'.2 ∧ SameShape (blocksIn hist) r.2) (perform ops c hist) (perform ops c' (widened M hist))
  | [], S, _, _, h, _ => .both ⟨⟨S, h⟩, .nil, .nil⟩
  | (batch, k) :: rest, S, c, c', h, hw => by
    obtain ⟨hrest, hc⟩ := call_part hW h hw
    show RelO _ ((c.call ops batch k).bind _) ((c'.call ops batch (widenCall M k)).bind _)
    refine RelO.bind hc fun r r' ⟨ht, ho, hs⟩ => ?_
    refine RelO.map (perform_part hW rest ht hrest) fun q q' ⟨ht', ho', hs'⟩ => ⟨ht', List.rel_append ho ho', ?_⟩
    have : blocksIn ((batch, k) :: rest) = blocksIn [(batch, k)] ++ blocksIn rest := by cases k <;> rfl
    rw [this]
    exact List.rel_append hs hs'

theorem tracks_ids {Good : V → Prop} {M : ℕ} {S : Option (ℕ × ℕ)} {c c' : Core V} (h : SizedAlike Good M S c c') : slotIds c' = slotIds c := by
  obtain ⟨b, p, e⟩ : ∃ b p, c' = resize c b p := by
    cases S with
    | none => exact h.2.2.2
    | some q => exact Resized.same h
  rw [e]
  rfl

theorem tracks_start {Good : V → Prop} {M : ℕ} : SizedAlike Good M none ({} : Core V) {} := ⟨rfl, rfl, rfl, _, _, rfl⟩

/-- The real convolver, in any arithmetic. -/
theorem narrow_convolver [Arith] (F : RealFFT) (A : GainArith) (N M : ℕ) : Narrow (convolverOpsR F A) N M (RoutedWithin N) where
  process hNK hKM hg hp := (process_part F hNK hKM hg hp).mono fun r r' ⟨h1, h2, h3, h4, _⟩ => ⟨h1, h2, by
    unfold RoutedWithin
    rw [h3, h4]
    exact hg⟩
  reset hg := hg

/-- The history for `M` channels is well-formed. -/
theorem wellFormed_widened {N M : ℕ} {Good : V → Prop} : ∀ (hist : List (List (Held V) × Call)) {S : Option (ℕ × ℕ)}, ChangesChannels N M Good S hist →
    ∀ {Good' : V → Prop}, (∀ b ∈ hist, ∀ g ∈ b.1, Good' g.obj) → WellFormed M Good' (S.map Prod.snd) (widened M hist)
  | [], _, _, _, _ => trivial
  | (batch, k) :: rest, S, hw, Good', hg => by
    obtain ⟨_, hn, hk⟩ := hw
    have hrest : ∀ b ∈ rest, ∀ g ∈ b.1, Good' g.obj := fun b hb => hg b (List.mem_cons_of_mem _ hb)
    refine ⟨hg _ List.mem_cons_self, fun hS hp => hn (by cases S; rfl; cases hS) fun p g e => hp { p with numChannels := M } g (by subst e; rfl), ?_⟩
    cases k with
    | process blk =>
      obtain ⟨⟨_, _⟩, hb, hr⟩ := hk
      refine ⟨rfl, fun m hm => ?_, wellFormed_widened rest hr hrest⟩
      cases S with
      | none => cases hm
      | some q => cases hm; exact (hb q.1 q.2 rfl).2
    | reset => exact wellFormed_widened rest hk hrest
    | clear => exact wellFormed_widened rest hk hrest
    | prepare p g =>
      obtain ⟨⟨_, _, hv⟩, hr⟩ := hk
      exact ⟨⟨rfl, hv.2⟩, wellFormed_widened rest hr hrest⟩

theorem changes_of {N M : ℕ} {Good : V → Prop} : ∀ (hist : List (List (Held V) × Call)) (S : Option (ℕ × ℕ)), HostChanges N M S (hist.map Prod.snd) →
    (∀ b ∈ hist, ∀ g ∈ b.1, Good g.obj) → (S = none → Early hist) → ChangesChannels N M Good S hist
  | [], _, _, _, _ => trivial
  | (b, k) :: rest, S, hh, hg, he => by
    have hg' : ∀ b ∈ rest, ∀ g ∈ b.1, Good g.obj := fun b hb => hg b (List.mem_cons_of_mem _ hb)
    have he0 : S = none → (∀ p g, k ≠ .prepare p g) → b = [] := fun hM hk => by
      rcases he hM with ⟨p, g, h⟩ | h
      · exact absurd h (hk p g)
      · exact h.1
    have he1 : (∀ p g, k ≠ .prepare p g) → S = none → Early rest := fun hk hM => by
      rcases he hM with ⟨p, g, h⟩ | h
      · exact absurd h (hk p g)
      · exact h.2
    refine ⟨hg _ List.mem_cons_self, he0, ?_⟩
    cases k with
    | process blk => exact ⟨hh.1, hh.2.1, changes_of rest S hh.2.2 hg' (he1 fun _ _ h => by cases h)⟩
    | reset => exact changes_of rest S hh hg' (he1 fun _ _ h => by cases h)
    | clear => exact changes_of rest S hh hg' (he1 fun _ _ h => by cases h)
    | prepare p g => exact ⟨hh.1, changes_of rest _ hh.2 hg' fun h => by cases h⟩

theorem changes_good {N M : ℕ} {Good Good' : V → Prop} : ∀ (hist : List (List (Held V) × Call)) {S : Option (ℕ × ℕ)}, ChangesChannels N M Good S hist →
    (∀ b ∈ hist, ∀ g ∈ b.1, Good' g.obj) → ChangesChannels N M Good' S hist
  | [], _, _, _ => trivial
  | (b, k) :: rest, S, hh, hg => by
    have hg' : ∀ b ∈ rest, ∀ g ∈ b.1, Good' g.obj := fun b hb => hg b (List.mem_cons_of_mem _ hb)
    obtain ⟨_, h2, h3⟩ := hh
    refine ⟨hg _ List.mem_cons_self, h2, ?_⟩
    cases k with
    | process blk => exact ⟨h3.1, h3.2.1, changes_good rest h3.2.2 hg'⟩
    | reset => exact changes_good rest h3 hg'
    | clear => exact changes_good rest h3 hg'
    | prepare p g => exact ⟨h3.1, changes_good rest h3.2 hg'⟩

theorem firstChannels_trans {M : ℕ} : ∀ {xs ys zs : List Buf}, List.Forall₂ FirstChannels xs ys → SameSamples M ys zs → List.Forall₂ FirstChannels xs zs
  | _, _, _, .nil, h => by cases h; exact .nil
  | _, _, _, .cons h hs, h' => by
    cases h' with
    | cons k ks =>
      obtain ⟨h1, h2, h3⟩ := h
      obtain ⟨k1, k2, k3, k4⟩ := k
      exact .cons ⟨by omega, by omega, fun c hc i hi => (h3 c hc i hi).trans (k4 c (by omega) i (by omega))⟩ (firstChannels_trans hs ks)

/-! ## Too few channels -/

theorem foldlM_none {α β : Type} {f : α → β → Option α} {x : β} (hx : ∀ a, f a x = none) : ∀ (xs : List β), x ∈ xs → ∀ a, xs.foldlM f a = none
  | [], h, _ => by cases h
  | y :: ys, h, a => by
    rw [List.foldlM_cons]
    rcases List.mem_cons.mp h with rfl | h
    · rw [hx]; rfl
    · cases hy : f a y with
      | none => rfl
      | some b => exact foldlM_none hx ys h b

theorem single_missing {r : List ℤ} {i K : ℕ} (h : ¬ ∃ z, r[i]? = some z ∧ 0 ≤ z ∧ z < K) (b : Buf) (hb : b.ch = K) : (Convolver.route r i).bind b.single = none := by
  unfold Convolver.route
  cases hz : r[i]? with
  | none => rfl
  | some z =>
    simp only
    by_cases h0 : 0 ≤ z
    · rw [if_pos h0, Option.bind_some]
      refine if_neg fun hlt => h ⟨z, hz, h0, ?_⟩
      rw [hb] at hlt
      omega
    · rw [if_neg h0]; rfl

/-- An iteration of `Process` on a block without a channel that the convolver looks up. -/
theorem body_missing [Arith] (F : RealFFT) {K : ℕ} {s : Convolver} (h : ¬ RoutedWithin K s) {blk : Buf} (hb : blk.ch = K) (done k : ℕ) : s.bodyR F blk done k = none := by
  unfold Convolver.bodyR
  simp only [Option.bind_eq_bind]
  cases ho : blk.sub done k with
  | none => rfl
  | some out =>
    have hch : out.ch = K := by
      unfold Buf.sub at ho
      split at ho
      · cases ho; exact hb
      · cases ho
    rw [Option.bind_some]
    cases hrs : s.routing.sub 0 k with
    | none => rfl
    | some rs =>
      rw [Option.bind_some]
      cases hg : (List.range s.numConv).foldlM (Convolver.gatherOne s out) rs with
      | none => rfl
      | some rs' =>
        rw [Option.bind_some]
        cases hp : s.nupc.processR F rs' with
        | none => rfl
        | some r =>
          rw [Option.bind_some]
          have hin : ValidRouting s.spec.inputRouting s.numConv K := by
            intro i hi
            by_contra hz
            rw [foldlM_none (x := i) (fun a => ?_) _ (List.mem_range.mpr hi) rs] at hg
            · cases hg
            · unfold Convolver.gatherOne
              simp only [Option.bind_eq_bind]
              rw [← Option.bind_assoc, single_missing hz out hch]
              rfl
          have hout : ¬ ValidRouting s.spec.outputRouting s.numConv K := fun hv => h ⟨hin, hv⟩
          unfold ValidRouting at hout
          push Not at hout
          obtain ⟨i, hi, hz⟩ := hout
          have key : ∀ (xs : List ℕ) (a : Buf), i ∈ xs → a.ch = K → xs.foldlM (Convolver.scatterOneR s r.2) a = none := by
            intro xs
            induction xs with
            | nil => intro a h _; cases h
            | cons y ys ih =>
              intro a hm ha
              rw [List.foldlM_cons]
              cases hy : Convolver.scatterOneR s r.2 a y with
              | none => rfl
              | some b =>
                rcases List.mem_cons.mp hm with rfl | hm
                · exfalso
                  unfold Convolver.scatterOneR at hy
                  simp only [Option.bind_eq_bind, Option.bind_eq_some_iff] at hy
                  obtain ⟨o, h1, dst, h2, _⟩ := hy
                  have := single_missing (fun ⟨z, h1, h2, h3⟩ => absurd h3 (not_lt.mpr (hz z h1 h2))) a ha
                  rw [h1, Option.bind_some, h2] at this
                  cases this
                · refine ih b hm ?_
                  unfold Convolver.scatterOneR at hy
                  simp only [Option.bind_eq_bind, Option.bind_eq_some_iff] at hy
                  obtain ⟨_, _, _, _, _, _, _, _, hy⟩ := hy
                  cases hy
                  exact ha
          rw [key (List.range s.numConv) out.clear (List.mem_range.mpr hi) hch]
          rfl

theorem process_missing [Arith] (F : RealFFT) {K : ℕ} {s : Convolver} (h : ¬ RoutedWithin K s) {blk : Buf} (hb : blk.ch = K) (hn : 0 < blk.n) : s.processR F blk = none := by
  unfold Convolver.processR
  obtain ⟨n, e⟩ : ∃ n, blk.n = n + 1 := ⟨blk.n - 1, by omega⟩
  rw [e]
  unfold Convolver.loopR
  rw [if_pos hn]
  simp only [Option.bind_eq_bind]
  rw [body_missing F (s := { s with routing := s.routing.clear }) h hb]
  rfl

end Zones.Proofs
