import Verif.Model.Rounding
import Verif.Props.Energy
import Verif.Props.BasisChange

/-!
# Property C110: rounding errors of basis changes, energies and Fock matrices
-/

namespace QS.Props

open Finset NDArray BasisSet QS.Rounding

/-- `x` is `e` up to `k` roundings; `T` bounds the sum of the absolute values of the terms of `e`. -/
def Within (u : ℝ) (k : ℕ) (x e : ℂ) (T : ℝ) : Prop := ‖x - e‖ ≤ ((1 + u) ^ k - 1) * T ∧ ‖e‖ ≤ T

theorem pow_ge {u : ℝ} (hu : 0 ≤ u) (k : ℕ) : 1 ≤ (1 + u) ^ k := one_le_pow₀ (by linarith)

theorem Within.exact (u : ℝ) (x : ℂ) : Within u 0 x x ‖x‖ := by
  constructor <;> simp

theorem Within.nonneg {u : ℝ} {k : ℕ} {x e : ℂ} {T : ℝ} (h : Within u k x e T) : 0 ≤ T := (norm_nonneg _).trans h.2

theorem Within.norm_le {u : ℝ} {k : ℕ} {x e : ℂ} {T : ℝ} (h : Within u k x e T) : ‖x‖ ≤ (1 + u) ^ k * T := by
  have : ‖x‖ ≤ ‖x - e‖ + ‖e‖ := by
    simpa using norm_add_le (x - e) e
  have := h.1
  have := h.2
  linarith

theorem Within.mono {u : ℝ} (hu : 0 ≤ u) {k k' : ℕ} {x e : ℂ} {T : ℝ} (h : Within u k x e T) (hk : k ≤ k') :
    Within u k' x e T :=
  ⟨h.1.trans (mul_le_mul_of_nonneg_right (sub_le_sub_right (pow_le_pow_right₀ (by linarith) hk) 1) h.nonneg), h.2⟩

theorem Within.near {u : ℝ} (hu : 0 ≤ u) {k : ℕ} {x e z : ℂ} {T : ℝ} (h : Within u k x e T) (hz : Near u x z) :
    Within u (k + 1) z e T := by
  refine ⟨?_, h.2⟩
  have h1 : ‖z - e‖ ≤ ‖z - x‖ + ‖x - e‖ := norm_sub_le_norm_sub_add_norm_sub _ _ _
  have h2 : u * ‖x‖ ≤ u * ((1 + u) ^ k * T) := mul_le_mul_of_nonneg_left h.norm_le hu
  have h3 := h.1
  unfold Near at hz
  rw [pow_succ]
  linarith

theorem Within.add {u : ℝ} {k : ℕ} {x e y f : ℂ} {T S : ℝ} (h : Within u k x e T) (h' : Within u k y f S) :
    Within u k (x + y) (e + f) (T + S) := by
  refine ⟨?_, (norm_add_le _ _).trans (add_le_add h.2 h'.2)⟩
  rw [show x + y - (e + f) = (x - e) + (y - f) by ring, mul_add]
  exact (norm_add_le _ _).trans (add_le_add h.1 h'.1)

theorem Within.neg {u : ℝ} {k : ℕ} {x e : ℂ} {T : ℝ} (h : Within u k x e T) : Within u k (-x) (-e) T := by
  refine ⟨?_, by rw [norm_neg]; exact h.2⟩
  rw [show -x - -e = -(x - e) by ring, norm_neg]
  exact h.1

theorem Within.mul {u : ℝ} (hu : 0 ≤ u) {k k' : ℕ} {x e y f : ℂ} {T S : ℝ} (h : Within u k x e T)
    (h' : Within u k' y f S) : Within u (k + k') (x * y) (e * f) (T * S) := by
  refine ⟨?_, by rw [norm_mul]; exact mul_le_mul h.2 h'.2 (norm_nonneg _) h.nonneg⟩
  have e1 : x * y - e * f = (x - e) * y + e * (y - f) := by ring
  have h1 : ‖x * y - e * f‖ ≤ ‖x - e‖ * ‖y‖ + ‖e‖ * ‖y - f‖ := by
    rw [e1, ← norm_mul, ← norm_mul]
    exact norm_add_le _ _
  have h2 : ‖x - e‖ * ‖y‖ ≤ ((1 + u) ^ k - 1) * T * ((1 + u) ^ k' * S) :=
    mul_le_mul h.1 h'.norm_le (norm_nonneg _) (mul_nonneg (sub_nonneg.2 (pow_ge hu k)) h.nonneg)
  have h3 : ‖e‖ * ‖y - f‖ ≤ T * (((1 + u) ^ k' - 1) * S) := mul_le_mul h.2 h'.1 (norm_nonneg _) h.nonneg
  rw [pow_add]
  have h4 : ((1 + u) ^ k - 1) * T * ((1 + u) ^ k' * S) + T * (((1 + u) ^ k' - 1) * S) =
      ((1 + u) ^ k * (1 + u) ^ k' - 1) * (T * S) := by ring
  linarith

theorem Within.sum {ι : Type} {u : ℝ} (hu : 0 ≤ u) {k : ℕ} {t e : ι → ℂ} {T : ι → ℝ} {L : List ι} {d : ℕ} {z : ℂ}
    (h : ∀ i ∈ L, Within u k (t i) (e i) (T i)) (hs : FloatSum u t L d z) :
    Within u (k + d) z (L.map e).sum (L.map T).sum := by
  induction hs with
  | nil => constructor <;> simp
  | single i => simpa using h i (by simp)
  | add _ _ hz ih ih' =>
    rename_i L L' d d' x y z _ _
    have i1 := (ih fun i hi => h i (by simp [hi])).mono hu (show k + d ≤ k + (d + d') by omega)
    have i2 := (ih' fun i hi => h i (by simp [hi])).mono hu (show k + d' ≤ k + (d + d') by omega)
    rw [List.map_append, List.map_append, List.sum_append, List.sum_append]
    exact (i1.add i2).near hu hz
  | perm _ hp ih =>
    rw [← (hp.map e).sum_eq, ← (hp.map T).sum_eq]
    exact ih fun i hi => h i (hp.mem_iff.1 hi)

theorem list_sum_range {M : Type} [AddCommMonoid M] (f : ℕ → M) (n : ℕ) :
    ((List.range n).map f).sum = ∑ i ∈ range n, f i := by
  induction n with
  | zero => simp
  | succ n ih => rw [List.range_succ, List.map_append, List.sum_append, ih, sum_range_succ]; simp

theorem Within.trace {u : ℝ} (hu : 0 ≤ u) {k d n : ℕ} {t e : ℕ → ℂ} {T : ℕ → ℝ} {z : ℂ}
    (h : ∀ i < n, Within u k (t i) (e i) (T i)) (hs : FloatTrace u d n t z) :
    Within u (k + d) z (∑ i ∈ range n, e i) (∑ i ∈ range n, T i) := by
  obtain ⟨d', hd, hs⟩ := hs
  rw [← list_sum_range, ← list_sum_range]
  exact (Within.sum hu (fun i hi => h i (List.mem_range.1 hi)) hs).mono hu (by omega)

theorem Within.dot {u : ℝ} (hu : 0 ≤ u) {k k' d n : ℕ} {f e g c : ℕ → ℂ} {T S : ℕ → ℝ} {z : ℂ}
    (h : ∀ i < n, Within u k (f i) (e i) (T i)) (h' : ∀ i < n, Within u k' (g i) (c i) (S i))
    (hs : FloatDot u d n f g z) :
    Within u (k + k' + (d + 1)) z (∑ i ∈ range n, e i * c i) (∑ i ∈ range n, T i * S i) := by
  obtain ⟨t, ht, hs⟩ := hs
  exact (Within.trace hu (k := k + k' + 1) (fun i hi => ((h i hi).mul hu (h' i hi)).near hu (ht i hi)) hs).mono hu
    (by omega)

theorem oneBody_within {u : ℝ} (hu : 0 ≤ u) {d m k l n : ℕ} {h C Ct R : NDArray ℂ}
    (hf : FloatOneBody u d m k l n h C Ct R) {p q : ℕ} (hp : p < m) (hq : q < n) :
    Within u (2 * (d + 1)) (R.get [p, q])
      (∑ a ∈ range k, ∑ b ∈ range l, Ct.get [p, a] * h.get [a, b] * C.get [b, q])
      (∑ a ∈ range k, ∑ b ∈ range l, ‖Ct.get [p, a]‖ * ‖h.get [a, b]‖ * ‖C.get [b, q]‖) := by
  obtain ⟨M, h1, h2⟩ := hf
  have w1 : ∀ a < k, Within u (d + 1) (M a q) (∑ b ∈ range l, h.get [a, b] * C.get [b, q])
      (∑ b ∈ range l, ‖h.get [a, b]‖ * ‖C.get [b, q]‖) := fun a ha =>
    (Within.dot hu (fun b _ => Within.exact u _) (fun b _ => Within.exact u _) (h1 a ha q hq)).mono hu (by omega)
  have w2 := (Within.dot hu (fun a _ => Within.exact u (Ct.get [p, a])) w1 (h2 p hp q hq)).mono hu
    (show 0 + (d + 1) + (d + 1) ≤ 2 * (d + 1) by omega)
  simpa only [mul_sum, ← mul_assoc] using w2

/-- **C110** Every floating-point result of `transform_one_body_elements`, in whatever order the products are added,
is close to the exact one. -/
theorem C110_one_body {u : ℝ} (hu : 0 ≤ u) (np : Module) {d m k l n : ℕ} {h C Ct R : NDArray ℂ}
    (hh : h.shape = [k, l]) (hC : C.shape = [l, n]) (hCt : Ct.shape = [m, k])
    (hf : FloatOneBody u d m k l n h C Ct R) :
    ∃ r, transformOneBody (some np) (some h) C (some Ct) = .ok r ∧ ∀ p < m, ∀ q < n,
      ‖R.get [p, q] - r.get [p, q]‖ ≤ ((1 + u) ^ (2 * (d + 1)) - 1) *
        ∑ a ∈ range k, ∑ b ∈ range l, ‖Ct.get [p, a]‖ * ‖h.get [a, b]‖ * ‖C.get [b, q]‖ := by
  obtain ⟨r, hr, -, hv⟩ := (C01_one_body np hh hC hCt).1 rfl rfl
  refine ⟨r, hr, fun p hp q hq => ?_⟩
  rw [hv p hp q hq]
  exact (oneBody_within hu hf hp hq).1

theorem twoBody_within {u : ℝ} (hu : 0 ≤ u) {d m l n : ℕ} {U C Ct R : NDArray ℂ}
    (hf : FloatTwoBody u d m l n U C Ct R) {p q r s : ℕ} (hp : p < m) (hq : q < m) (hr : r < n) (hs : s < n) :
    Within u (4 * (d + 1)) (R.get [p, q, r, s])
      (∑ a ∈ range l, ∑ b ∈ range l, ∑ c ∈ range l, ∑ e ∈ range l,
        Ct.get [p, a] * Ct.get [q, b] * U.get [a, b, c, e] * C.get [c, r] * C.get [e, s])
      (∑ a ∈ range l, ∑ b ∈ range l, ∑ c ∈ range l, ∑ e ∈ range l,
        ‖Ct.get [p, a]‖ * ‖Ct.get [q, b]‖ * ‖U.get [a, b, c, e]‖ * ‖C.get [c, r]‖ * ‖C.get [e, s]‖) := by
  obtain ⟨M₁, M₂, M₃, h1, h2, h3, h4⟩ := hf
  have w1 : ∀ a < l, ∀ b < l, ∀ c < l, Within u (d + 1) (M₁ a b c s) _ _ := fun a ha b hb c hc =>
    (Within.dot hu (fun e _ => Within.exact u _) (fun e _ => Within.exact u _) (h1 a ha b hb c hc s hs)).mono hu
      (by omega)
  have w2 : ∀ a < l, ∀ b < l, Within u (2 * (d + 1)) (M₂ a b r s) _ _ := fun a ha b hb =>
    (Within.dot hu (w1 a ha b hb) (fun e _ => Within.exact u _) (h2 a ha b hb r hr s hs)).mono hu (by omega)
  have w3 : ∀ a < l, Within u (3 * (d + 1)) (M₃ a q r s) _ _ := fun a ha =>
    (Within.dot hu (w2 a ha) (fun e _ => Within.exact u _) (h3 a ha q hq r hr s hs)).mono hu (by omega)
  have w4 := (Within.dot hu (fun a _ => Within.exact u (Ct.get [p, a])) w3 (h4 p hp q hq r hr s hs)).mono hu
    (show 0 + 3 * (d + 1) + (d + 1) ≤ 4 * (d + 1) by omega)
  convert w4 using 1
  · refine sum_congr rfl fun a _ => ?_
    rw [mul_sum]
    refine sum_congr rfl fun b _ => ?_
    rw [sum_mul, mul_sum]
    refine sum_congr rfl fun c _ => ?_
    rw [sum_mul, sum_mul, mul_sum]
    exact sum_congr rfl fun e _ => by ring
  · refine sum_congr rfl fun a _ => ?_
    rw [mul_sum]
    refine sum_congr rfl fun b _ => ?_
    rw [sum_mul, mul_sum]
    refine sum_congr rfl fun c _ => ?_
    rw [sum_mul, sum_mul, mul_sum]
    exact sum_congr rfl fun e _ => by ring

/-- **C110** The same for `transform_two_body_elements`. -/
theorem C110_two_body {u : ℝ} (hu : 0 ≤ u) (np : Module) {d m l n : ℕ} {U C Ct R : NDArray ℂ}
    (hU : U.shape = [l, l, l, l]) (hC : C.shape = [l, n]) (hCt : Ct.shape = [m, l])
    (hf : FloatTwoBody u d m l n U C Ct R) :
    ∃ x, transformTwoBody (some np) (some U) C (some Ct) = .ok x ∧ ∀ p < m, ∀ q < m, ∀ r < n, ∀ s < n,
      ‖R.get [p, q, r, s] - x.get [p, q, r, s]‖ ≤ ((1 + u) ^ (4 * (d + 1)) - 1) *
        ∑ a ∈ range l, ∑ b ∈ range l, ∑ c ∈ range l, ∑ e ∈ range l,
          ‖Ct.get [p, a]‖ * ‖Ct.get [q, b]‖ * ‖U.get [a, b, c, e]‖ * ‖C.get [c, r]‖ * ‖C.get [e, s]‖ := by
  obtain ⟨x, hx, -, hv⟩ := (C02_two_body np hU hC hCt).1 rfl rfl
  refine ⟨x, hx, fun p hp q hq r hr s hs => ?_⟩
  rw [hv p hp q hq r hr s hs]
  exact (twoBody_within hu hf hp hq hr hs).1

/-- **C110** Elements that are Hermitian stay so up to rounding. -/
theorem C110_hermitian {u : ℝ} (hu : 0 ≤ u) {d l n : ℕ} {h C R : NDArray ℂ}
    (hC : C.shape = [l, n]) (hh : ∀ a < l, ∀ b < l, h.get [a, b] = star (h.get [b, a]))
    (hf : FloatOneBody u d n l l n h C C.conj.T R) {p q : ℕ} (hp : p < n) (hq : q < n) :
    ‖R.get [p, q] - star (R.get [q, p])‖ ≤ 2 * (((1 + u) ^ (2 * (d + 1)) - 1) *
      ∑ a ∈ range l, ∑ b ∈ range l, ‖C.get [a, p]‖ * ‖h.get [a, b]‖ * ‖C.get [b, q]‖) := by
  have h1 := (oneBody_within hu hf hp hq).1
  have h2 := (oneBody_within hu hf hq hp).1
  simp only [conjT_get2 C hC, norm_star] at h1 h2
  have e : (∑ a ∈ range l, ∑ b ∈ range l, star (C.get [a, p]) * h.get [a, b] * C.get [b, q]) =
      star (∑ a ∈ range l, ∑ b ∈ range l, star (C.get [a, q]) * h.get [a, b] * C.get [b, p]) := by
    simp only [star_sum, star_mul', star_star]
    rw [sum_comm]
    refine sum_congr rfl fun a ha => sum_congr rfl fun b hb => ?_
    rw [hh b (mem_range.1 hb) a (mem_range.1 ha)]
    ring
  have e' : (∑ a ∈ range l, ∑ b ∈ range l, ‖C.get [a, q]‖ * ‖h.get [a, b]‖ * ‖C.get [b, p]‖) =
      ∑ a ∈ range l, ∑ b ∈ range l, ‖C.get [a, p]‖ * ‖h.get [a, b]‖ * ‖C.get [b, q]‖ := by
    rw [sum_comm]
    refine sum_congr rfl fun a ha => sum_congr rfl fun b hb => ?_
    rw [hh b (mem_range.1 hb) a (mem_range.1 ha), norm_star]
    ring
  rw [e'] at h2
  rw [e] at h1
  generalize (∑ a ∈ range l, ∑ b ∈ range l, star (C.get [a, q]) * h.get [a, b] * C.get [b, p]) = x at h1 h2
  have h3 : ‖star x - star (R.get [q, p])‖ = ‖R.get [q, p] - x‖ := by
    rw [← star_sub, norm_star, norm_sub_rev]
  have h4 : ‖R.get [p, q] - star (R.get [q, p])‖ ≤ ‖R.get [p, q] - star x‖ + ‖star x - star (R.get [q, p])‖ :=
    norm_sub_le_norm_sub_add_norm_sub _ _ _
  linarith

/-- The sum of the absolute values of the terms of the reference energy. -/
noncomputable def energyScale (n : ℕ) (H : ℕ → ℕ → ℝ) (U : ℕ → ℕ → ℕ → ℕ → ℝ) : SysKind → ℝ
  | .general => ∑ i ∈ range n, H i i + 1 / 2 * ∑ i ∈ range n, ∑ j ∈ range n, U i j i j
  | .spatial => 2 * ∑ i ∈ range n, H i i + 2 * ∑ i ∈ range n, ∑ j ∈ range n, U i j i j +
      ∑ i ∈ range n, ∑ j ∈ range n, U i j j i

/-- The exact energy of arrays. -/
noncomputable def energyOf (n : ℕ) (H : ℕ → ℕ → ℂ) (U : ℕ → ℕ → ℕ → ℕ → ℂ) : SysKind → ℂ
  | .general => ∑ i ∈ range n, H i i + 1 / 2 * ∑ i ∈ range n, ∑ j ∈ range n, U i j i j
  | .spatial => 2 * ∑ i ∈ range n, H i i + 2 * ∑ i ∈ range n, ∑ j ∈ range n, U i j i j -
      ∑ i ∈ range n, ∑ j ∈ range n, U i j j i

theorem Within.const {u : ℝ} (hu : 0 ≤ u) (c : ℝ) (hc : 0 ≤ c) {k : ℕ} {x e : ℂ} {T : ℝ} (h : Within u k x e T) :
    Within u k ((c : ℂ) * x) ((c : ℂ) * e) (c * T) := by
  have := (Within.exact u (c : ℂ)).mul hu h
  rw [Complex.norm_real, Real.norm_of_nonneg hc, Nat.zero_add] at this
  exact this

theorem energy_within {u : ℝ} (hu : 0 ≤ u) {kd : SysKind} {d n k : ℕ} {H U : NDArray ℂ} {H₀ : ℕ → ℕ → ℂ}
    {U₀ : ℕ → ℕ → ℕ → ℕ → ℂ} {TH : ℕ → ℕ → ℝ} {TU : ℕ → ℕ → ℕ → ℕ → ℝ} {e : ℂ}
    (hH : ∀ p < n, ∀ q < n, Within u k (H.get [p, q]) (H₀ p q) (TH p q))
    (hU : ∀ p < n, ∀ q < n, ∀ r < n, ∀ s < n, Within u k (U.get [p, q, r, s]) (U₀ p q r s) (TU p q r s))
    (he : FloatEnergy u d n H U kd e) : Within u (k + (2 * d + 3)) e (energyOf n H₀ U₀ kd) (energyScale n TH TU kd) := by
  cases kd with
  | general =>
    obtain ⟨t, x, y, M, h1, h2, h3, h4, h5⟩ := he
    have w1 := Within.trace hu (fun i hi => hH i hi i hi) h1
    have w2 := Within.trace hu (fun i hi => Within.trace hu (fun j hj => hU i hi j hj i hi j hj) (h2 i hi)) h3
    have w4 := (Within.const hu (1 / 2) (by norm_num) w2).near hu (by simpa using h4)
    have w5 := ((w1.mono hu (show k + d ≤ k + (2 * d + 2) by omega)).add
      (w4.mono hu (show k + d + d + 1 ≤ k + (2 * d + 2) by omega))).near hu h5
    rw [add_assoc] at w5
    simpa only [energyOf, energyScale, Complex.ofReal_div, Complex.ofReal_one, Complex.ofReal_ofNat] using w5
  | spatial =>
    obtain ⟨t, t', x, x', y, z, M, M', h1, h1', h2, h3, h3', h4, h5, h6, h7⟩ := he
    have w1 := (Within.const hu 2 (by norm_num) (Within.trace hu (fun i hi => hH i hi i hi) h1)).near hu
      (by simpa using h1')
    have w2 := (Within.const hu 2 (by norm_num) (Within.trace hu (fun i hi =>
      Within.trace hu (fun j hj => hU i hi j hj i hi j hj) (h2 i hi)) h3)).near hu (by simpa using h3')
    have w3 := Within.trace hu (fun i hi => Within.trace hu (fun j hj => hU i hi j hj j hj i hi) (h4 i hi)) h5
    have w4 := ((w1.mono hu (show k + d + 1 ≤ k + (2 * d + 1) by omega)).add
      (w2.mono hu (show k + d + d + 1 ≤ k + (2 * d + 1) by omega))).near hu h6
    have w5 := (w4.add (w3.neg.mono hu (show k + d + d ≤ k + (2 * d + 1) + 1 by omega))).near hu
      (by simpa only [sub_eq_add_neg] using h7)
    rw [show k + (2 * d + 1) + 1 + 1 = k + (2 * d + 3) by omega] at w5
    simpa only [energyOf, energyScale, Complex.ofReal_ofNat, sub_eq_add_neg] using w5

theorem energy_exact {T : Type} {w : World ℂ T} {s : ℕ} {x : Sys} {b : BasisSet ℂ} (ok : SysOK w s x b) {H U : NDArray ℂ}
    (hh : b.h = some H) (hu : b.u = some U) :
    ∃ r, (World.referenceEnergy s).run w = (.ok r, w) ∧
      r.get [] = energyOf x.n (fun p q => H.get [p, q]) (fun p q r s => U.get [p, q, r, s]) x.kind := by
  obtain ⟨r, h1, -, h2, h3⟩ := C24_formulas ok hh hu
  refine ⟨r, h1, ?_⟩
  cases hk : x.kind with
  | general => rw [h2 hk]; rfl
  | spatial =>
    rw [h3 hk]
    simp only [sum_sub_distrib, ← mul_sum, energyOf]
    ring

/-- **C110** Every floating-point result of `compute_reference_energy` of both kinds of systems is close to the exact
one, relative to the sum of the absolute values of the terms. -/
theorem C110_energy {T : Type} {w : World ℂ T} {s : ℕ} {x : Sys} {b : BasisSet ℂ} (ok : SysOK w s x b)
    {H U : NDArray ℂ} (hh : b.h = some H) (hU : b.u = some U) {u : ℝ} (hu : 0 ≤ u) {d : ℕ} {e : ℂ}
    (he : FloatEnergy u d x.n H U x.kind e) :
    ∃ r, (World.referenceEnergy s).run w = (.ok r, w) ∧ ‖e - r.get []‖ ≤ ((1 + u) ^ (2 * d + 3) - 1) *
      energyScale x.n (fun p q => ‖H.get [p, q]‖) (fun p q r s => ‖U.get [p, q, r, s]‖) x.kind := by
  obtain ⟨r, h1, h2⟩ := energy_exact ok hh hU
  refine ⟨r, h1, ?_⟩
  rw [h2]
  have := (energy_within hu (k := 0) (fun p _ q _ => Within.exact u (H.get [p, q]))
    (fun p _ q _ r _ s _ => Within.exact u (U.get [p, q, r, s])) he).1
  rwa [Nat.zero_add] at this

/-- **C110** Errors of a basis change and of the energy after it add up: the energy computed from computed elements
is close to the exact energy of the exact elements. -/
theorem C110_energy_after_change {u : ℝ} (hu : 0 ≤ u) {kd : SysKind} {d l m n : ℕ} {H U C Ct H' U' : NDArray ℂ}
    (hH : FloatOneBody u d m l l m H C Ct H') (hU : FloatTwoBody u d m l m U C Ct U') (hn : n ≤ m) {e : ℂ}
    (he : FloatEnergy u d n H' U' kd e) :
    ‖e - energyOf n (fun p q => ∑ a ∈ range l, ∑ b ∈ range l, Ct.get [p, a] * H.get [a, b] * C.get [b, q])
        (fun p q r s => ∑ a ∈ range l, ∑ b ∈ range l, ∑ c ∈ range l, ∑ e ∈ range l,
          Ct.get [p, a] * Ct.get [q, b] * U.get [a, b, c, e] * C.get [c, r] * C.get [e, s]) kd‖ ≤
      ((1 + u) ^ (6 * d + 7) - 1) *
      energyScale n (fun p q => ∑ a ∈ range l, ∑ b ∈ range l, ‖Ct.get [p, a]‖ * ‖H.get [a, b]‖ * ‖C.get [b, q]‖)
        (fun p q r s => ∑ a ∈ range l, ∑ b ∈ range l, ∑ c ∈ range l, ∑ e ∈ range l,
          ‖Ct.get [p, a]‖ * ‖Ct.get [q, b]‖ * ‖U.get [a, b, c, e]‖ * ‖C.get [c, r]‖ * ‖C.get [e, s]‖) kd := by
  have := (energy_within hu (k := 4 * (d + 1))
    (fun p hp q hq => (oneBody_within hu hH (show p < m by omega) (show q < m by omega)).mono hu (by omega))
    (fun p hp q hq r hr s hs => twoBody_within hu hU (show p < m by omega) (show q < m by omega) (show r < m by omega)
      (show s < m by omega)) he).1
  rwa [show 4 * (d + 1) + (2 * d + 3) = 6 * d + 7 by omega] at this

/-- **C110** Entries of Fock matrices. -/
theorem C110_fock {u : ℝ} (hu : 0 ≤ u) {kd : SysKind} {d n p q : ℕ} {H U : NDArray ℂ} {f : ℂ}
    (hf : FloatFock u d n H U p q kd f) :
    ‖f - fockAt kd n H U p q‖ ≤ ((1 + u) ^ (d + 3) - 1) * (‖H.get [p, q]‖ +
      match kd with
      | .general => ∑ i ∈ range n, ‖U.get [p, i, q, i]‖
      | .spatial => 2 * ∑ i ∈ range n, ‖U.get [p, i, q, i]‖ + ∑ i ∈ range n, ‖U.get [p, i, i, q]‖) := by
  cases kd with
  | general =>
    obtain ⟨a, x, h1, h2, h3⟩ := hf
    rw [zero_add] at h1
    have w1 := (Within.exact u (H.get [p, q])).near hu h1
    have w2 := Within.trace hu (fun i _ => Within.exact u (U.get [p, i, q, i])) h2
    have w3 := (((w1.mono hu (show 0 + 1 ≤ d + 2 by omega)).add (w2.mono hu (show 0 + d ≤ d + 2 by omega))).near hu
      h3).1
    exact w3
  | spatial =>
    obtain ⟨a, x, x', b, y, h1, h2, h3, h4, h5, h6⟩ := hf
    rw [zero_add] at h1
    have w1 := (Within.exact u (H.get [p, q])).near hu h1
    have w2 := (Within.const hu 2 (by norm_num) (Within.trace hu (fun i _ => Within.exact u (U.get [p, i, q, i]))
      h2)).near hu (by simpa using h3)
    have w3 := ((w1.mono hu (show 0 + 1 ≤ d + 1 by omega)).add (w2.mono hu (show 0 + d + 1 ≤ d + 1 by omega))).near hu
      h4
    have w4 := Within.trace hu (fun i _ => Within.exact u (U.get [p, i, i, q])) h5
    have w5 := ((w3.add (w4.neg.mono hu (show 0 + d ≤ d + 1 + 1 by omega))).near hu
      (by simpa only [sub_eq_add_neg] using h6)).1
    have e : fockAt .spatial n H U p q = H.get [p, q] + ((2 : ℝ) : ℂ) * ∑ i ∈ range n, U.get [p, i, q, i] +
        -∑ i ∈ range n, U.get [p, i, i, q] := by
      simp only [fockAt, fockSpatialAt, Complex.ofReal_ofNat, sum_sub_distrib, mul_sum]
      ring
    rw [e, ← add_assoc]
    exact w5

/-- **C110** With a rounding that is odd, as rounding to nearest is, anti-symmetrised elements are exactly
anti-symmetric, and exactly zero for equal indices. -/
theorem C110_antisymmetric {fl : ℝ → ℝ} (hfl : ∀ x, fl (-x) = -fl x) (U : NDArray ℂ) (p q r s : ℕ) :
    floatAnti fl U p q s r = -floatAnti fl U p q r s ∧ floatAnti fl U p q r r = 0 := by
  have h0 : fl 0 = 0 := by
    have := hfl 0
    rw [neg_zero] at this
    linarith
  constructor
  · unfold floatAnti flC
    apply Complex.ext
    · simp only [Complex.neg_re]
      rw [← hfl, ← Complex.neg_re, neg_sub]
    · simp only [Complex.neg_im]
      rw [← hfl, ← Complex.neg_im, neg_sub]
  · unfold floatAnti flC
    rw [sub_self]
    apply Complex.ext <;> simp [h0]

theorem near_self {u : ℝ} (hu : 0 ≤ u) (x : ℂ) : Near u x x := by
  unfold Near
  rw [sub_self, norm_zero]
  exact mul_nonneg hu (norm_nonneg _)

/-- The exact sum is a possible result. -/
theorem floatSum_exact {u : ℝ} (hu : 0 ≤ u) (t : ℕ → ℂ) (n : ℕ) :
    FloatSum u t (List.range n) n (∑ i ∈ range n, t i) := by
  induction n with
  | zero => exact FloatSum.nil
  | succ n ih =>
    rw [List.range_succ, sum_range_succ]
    exact FloatSum.add ih (FloatSum.single n) (near_self hu _)

/-- **C110** The exact result is one of the possible results. -/
theorem C110_exact {u : ℝ} (hu : 0 ≤ u) (np : Module) {l n : ℕ} {h C Ct r : NDArray ℂ}
    (hh : h.shape = [l, l]) (hC : C.shape = [l, n]) (hCt : Ct.shape = [n, l])
    (hr : transformOneBody (some np) (some h) C (some Ct) = .ok r) : FloatOneBody u l n l l n h C Ct r := by
  obtain ⟨r', hr', -, hv⟩ := (C01_one_body np hh hC hCt).1 rfl rfl
  rw [hr] at hr'
  cases hr'
  refine ⟨fun a q => ∑ b ∈ range l, h.get [a, b] * C.get [b, q], fun a _ q _ => ?_, fun p hp q hq => ?_⟩
  · exact ⟨_, fun b _ => near_self hu _, l, le_rfl, floatSum_exact hu _ l⟩
  · refine ⟨_, fun b _ => near_self hu _, l, le_rfl, ?_⟩
    rw [hv p hp q hq]
    convert floatSum_exact hu (fun a => Ct.get [p, a] * ∑ b ∈ range l, h.get [a, b] * C.get [b, q]) l using 1
    exact sum_congr rfl fun a _ => by rw [mul_sum]; exact sum_congr rfl fun b _ => by ring

/-- With three digits: `1 + 0.001 = 1` and `0.001 + 1 - 1`, added in two orders, give different results. -/
example : FloatSum (1 / 1000) (fun i : ℕ => if i = 0 then (1 / 1000 : ℂ) else if i = 1 then 1 else -1) [0, 1, 2] 2 0 ∧
    FloatSum (1 / 1000) (fun i : ℕ => if i = 0 then (1 / 1000 : ℂ) else if i = 1 then 1 else -1) [0, 1, 2] 2
      (1 / 1000) := by
  have n1 : Near (1 / 1000) ((1 / 1000 : ℂ) + 1) 1 := by
    unfold Near
    rw [show (1 : ℂ) - (1 / 1000 + 1) = ((-(1 / 1000) : ℝ) : ℂ) by push_cast; ring,
      show (1 / 1000 : ℂ) + 1 = ((1001 / 1000 : ℝ) : ℂ) by push_cast; ring, Complex.norm_real, Complex.norm_real]
    norm_num
  constructor
  · refine FloatSum.add (L := [0, 1]) (d := 1) (d' := 0) (x := 1) (y := -1) ?_ (FloatSum.single 2) ?_
    · exact FloatSum.add (L := [0]) (d := 0) (d' := 0) (FloatSum.single 0) (FloatSum.single 1) (by simpa using n1)
    · simpa using near_self (show (0 : ℝ) ≤ 1 / 1000 by norm_num) 0
  · refine FloatSum.add (L := [0]) (d := 0) (d' := 1) (x := 1 / 1000) (y := 0) (FloatSum.single 0) ?_ ?_
    · exact FloatSum.add (L := [1]) (d := 0) (d' := 0) (FloatSum.single 1) (FloatSum.single 2)
        (by simpa using near_self (show (0 : ℝ) ≤ 1 / 1000 by norm_num) 0)
    · simpa using near_self (show (0 : ℝ) ≤ 1 / 1000 by norm_num) (1 / 1000)

end QS.Props
