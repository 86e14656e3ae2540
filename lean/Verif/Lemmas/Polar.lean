import Verif.Lemmas.TwoDim
import Verif.Spec.Polar
import Mathlib.MeasureTheory.Integral.IntervalIntegral.FundThmCalculus
import Mathlib.Analysis.Calculus.Deriv.Pow
import Mathlib.Analysis.Calculus.Deriv.Mul
import Mathlib.Analysis.SpecialFunctions.ExpDeriv

/-!
# The oscillator functions on the plane
-/

namespace QS.TwoDim

open Finset Idx QS.Spec MeasureTheory

/-- The coefficient of `r^{k+2i} e^{-b r²/2}` in the radial function. -/
noncomputable def radCoeff (n k : ℕ) (mass omega : ℝ) (i : ℕ) : ℝ :=
  lagCoeff n k i * bohrRadius mass omega ^ k * (mass * omega) ^ i

theorem bohr_sq {mass omega : ℝ} (hm : 0 < mass) (ho : 0 < omega) :
    bohrRadius mass omega ^ 2 = mass * omega := Real.sq_sqrt (by positivity)

theorem bohr_pos {mass omega : ℝ} (hm : 0 < mass) (ho : 0 < omega) : 0 < bohrRadius mass omega :=
  Real.sqrt_pos.2 (by positivity)

theorem spfRadial_expand {mass omega : ℝ} (hm : 0 < mass) (ho : 0 < omega) (n m : ℤ) (r : ℝ) :
    spfRadial n m mass omega r = ∑ i ∈ range (n.toNat + 1), radCoeff n.toNat m.natAbs mass omega i
      * (r ^ (m.natAbs + 2 * i) * Real.exp (-(mass * omega) * r ^ 2 / 2)) := by
  unfold spfRadial
  dsimp only
  rw [assocLaguerre_eq, bohr_sq hm ho, mul_sum, sum_mul]
  refine sum_congr rfl fun i _ => ?_
  rw [radCoeff, mul_pow, mul_pow, pow_add, pow_mul]
  ring

/-- Products of radial functions with powers, expanded. -/
theorem radial_product {mass omega : ℝ} (hm : 0 < mass) (ho : 0 < omega) (s : ℕ) (n m n' m' : ℤ) (r : ℝ) :
    r ^ s * spfRadial n m mass omega r * spfRadial n' m' mass omega r
      = ∑ j ∈ range (n'.toNat + 1), ∑ i ∈ range (n.toNat + 1),
        (radCoeff n.toNat m.natAbs mass omega i * radCoeff n'.toNat m'.natAbs mass omega j)
          * (r ^ (s + m.natAbs + m'.natAbs + 2 * i + 2 * j) * Real.exp (-(mass * omega) * r ^ 2)) := by
  rw [spfRadial_expand hm ho, spfRadial_expand hm ho, mul_sum]
  refine sum_congr rfl fun j _ => ?_
  rw [mul_sum, sum_mul]
  refine sum_congr rfl fun i _ => ?_
  rw [show Real.exp (-(mass * omega) * r ^ 2)
    = Real.exp (-(mass * omega) * r ^ 2 / 2) * Real.exp (-(mass * omega) * r ^ 2 / 2) by
      rw [← Real.exp_add]; congr 1; ring]
  simp only [pow_add]
  ring

theorem radial_integrable {mass omega : ℝ} (hm : 0 < mass) (ho : 0 < omega) (s : ℕ) (n m n' m' : ℤ) :
    IntegrableOn (fun r => r ^ s * spfRadial n m mass omega r * spfRadial n' m' mass omega r)
      (Set.Ioi 0) := by
  have hb : 0 < mass * omega := by positivity
  rw [show (fun r => r ^ s * spfRadial n m mass omega r * spfRadial n' m' mass omega r) = fun r =>
    ∑ j ∈ range (n'.toNat + 1), ∑ i ∈ range (n.toNat + 1),
        (radCoeff n.toNat m.natAbs mass omega i * radCoeff n'.toNat m'.natAbs mass omega j)
          * (r ^ (s + m.natAbs + m'.natAbs + 2 * i + 2 * j) * Real.exp (-(mass * omega) * r ^ 2))
    from funext fun r => radial_product hm ho s n m n' m' r]
  refine integrable_finsetSum _ fun j _ => integrable_finsetSum _ fun i _ => ?_
  exact (gauss_integrable hb _).const_mul _

/-- The radial functions with the same `|m|` are orthogonal. -/
theorem radial_orthogonal {mass omega : ℝ} (hm : 0 < mass) (ho : 0 < omega) (n n' m m' : ℤ)
    (h : m.natAbs = m'.natAbs) :
    ∫ r in Set.Ioi (0 : ℝ), r ^ 1 * spfRadial n m mass omega r * spfRadial n' m' mass omega r
      = if n.toNat = n'.toNat then ((n.toNat + m.natAbs).factorial : ℝ)
          / (n.toNat.factorial * (2 * (mass * omega))) else 0 := by
  have hb : 0 < mass * omega := by positivity
  rw [integral_congr_ae (Filter.Eventually.of_forall fun r => radial_product hm ho 1 n m n' m' r)]
  rw [integral_finsetSum _ fun j _ => integrable_finsetSum _ fun i _ =>
    (gauss_integrable hb _).const_mul _]
  have : ∀ j ∈ range (n'.toNat + 1), ∫ r in Set.Ioi (0 : ℝ), ∑ i ∈ range (n.toNat + 1),
        (radCoeff n.toNat m.natAbs mass omega i * radCoeff n'.toNat m'.natAbs mass omega j)
          * (r ^ (1 + m.natAbs + m'.natAbs + 2 * i + 2 * j) * Real.exp (-(mass * omega) * r ^ 2))
      = 1 / (2 * (mass * omega)) * ∑ i ∈ range (n.toNat + 1), lagCoeff n.toNat m.natAbs i
          * lagCoeff n'.toNat m.natAbs j * ((m.natAbs + i + j).factorial : ℝ) := by
    intro j _
    rw [integral_finsetSum _ fun i _ => (gauss_integrable hb _).const_mul _, mul_sum]
    refine sum_congr rfl fun i _ => ?_
    rw [integral_const_mul, ← h,
      show 1 + m.natAbs + m.natAbs + 2 * i + 2 * j = 2 * (m.natAbs + i + j) + 1 by ring,
      gauss_integral hb, radCoeff, radCoeff]
    have hk : bohrRadius mass omega ^ m.natAbs * bohrRadius mass omega ^ m.natAbs
        = (mass * omega) ^ m.natAbs := by rw [← mul_pow, ← pow_two, bohr_sq hm ho]
    have hb' : mass * omega ≠ 0 := hb.ne'
    generalize mass * omega = b at *
    rw [show lagCoeff n.toNat m.natAbs i * bohrRadius mass omega ^ m.natAbs * b ^ i
      * (lagCoeff n'.toNat m.natAbs j * bohrRadius mass omega ^ m.natAbs * b ^ j)
      = lagCoeff n.toNat m.natAbs i * lagCoeff n'.toNat m.natAbs j
        * (bohrRadius mass omega ^ m.natAbs * bohrRadius mass omega ^ m.natAbs) * b ^ i * b ^ j by ring, hk]
    rw [pow_succ, pow_add, pow_add]
    field_simp
  rw [sum_congr rfl this, ← mul_sum, lag_orthogonal]
  split_ifs
  · have : (n.toNat.factorial : ℝ) ≠ 0 := by positivity
    field_simp
  · simp

/-- The norm of a radial function. -/
theorem spfNorm_sq {mass omega : ℝ} (hm : 0 < mass) (ho : 0 < omega) {n m : ℤ} (hn : 0 ≤ n) :
    spfNorm n m mass omega * spfNorm n m mass omega * (((n.toNat + m.natAbs).factorial : ℝ)
          / (n.toNat.factorial * (2 * (mass * omega)))) * (2 * Real.pi) = 1 := by
  unfold spfNorm
  dsimp only
  have e : (n + |m|).toNat = n.toNat + m.natAbs := by rw [Int.abs_eq_natAbs]; omega
  rw [e]
  have hp := Real.pi_pos
  have h0 : (0 : ℝ) ≤ (n.toNat.factorial : ℝ) / (Real.pi * ((n.toNat + m.natAbs).factorial : ℕ)) := by
    positivity
  have hs := Real.mul_self_sqrt h0
  have hb := bohr_sq hm ho
  have f (m : ℕ) : (m.factorial : ℝ) ≠ 0 := by positivity
  have h1 := f n.toNat
  have h2 := f (n.toNat + m.natAbs)
  rw [show bohrRadius mass omega * √((n.toNat.factorial : ℝ) / (Real.pi * ((n.toNat + m.natAbs).factorial : ℕ)))
      * (bohrRadius mass omega * √((n.toNat.factorial : ℝ) / (Real.pi * ((n.toNat + m.natAbs).factorial : ℕ))))
      = bohrRadius mass omega ^ 2 * (√((n.toNat.factorial : ℝ) / (Real.pi * ((n.toNat + m.natAbs).factorial : ℕ)))
        * √((n.toNat.factorial : ℝ) / (Real.pi * ((n.toNat + m.natAbs).factorial : ℕ)))) by ring, hs, hb]
  field_simp

theorem bra_ket (nm : ℕ → ℤ × ℤ) (mass omega : ℝ) (x : ℝ) (p q : ℕ) (r t : ℝ) :
    (starRingEnd ℂ) (spfState nm mass omega p r t) * ((x : ℂ) * spfState nm mass omega q r t)
      = ((spfNorm (nm p).1 (nm p).2 mass omega * spfNorm (nm q).1 (nm q).2 mass omega
        * (spfRadial (nm p).1 (nm p).2 mass omega r * spfRadial (nm q).1 (nm q).2 mass omega r) : ℝ) : ℂ)
        * (Complex.exp (-(Complex.I * (nm p).2 * t)) * (x : ℂ) * Complex.exp (Complex.I * (nm q).2 * t)) := by
  unfold spfState spfTheta
  simp only [map_mul, Complex.conj_ofReal, ← Complex.exp_conj, Complex.conj_I]
  rw [show (starRingEnd ℂ) ((nm p).2 : ℂ) = ((nm p).2 : ℂ) from by
    rw [← Complex.ofReal_intCast, Complex.conj_ofReal]]
  rw [show -Complex.I * ((nm p).2 : ℂ) * (t : ℂ) = -(Complex.I * (nm p).2 * t) by ring]
  push_cast
  ring

/-- The angular integral of a product of a radial and an angular function. -/
theorem plane_inner_factor (nm : ℕ → ℤ × ℤ) (mass omega : ℝ) (w v : ℝ → ℝ) (p q : ℕ) (r : ℝ) :
    (∫ t in (0 : ℝ)..2 * Real.pi, (starRingEnd ℂ) (spfState nm mass omega p r t)
        * (((w r * v t : ℝ) : ℂ) * spfState nm mass omega q r t)) * (r : ℂ)
      = ((spfNorm (nm p).1 (nm p).2 mass omega * spfNorm (nm q).1 (nm q).2 mass omega
          * (r * w r * spfRadial (nm p).1 (nm p).2 mass omega r
            * spfRadial (nm q).1 (nm q).2 mass omega r) : ℝ) : ℂ) * angular v (nm p).2 (nm q).2 := by
  have : ∀ t : ℝ, (starRingEnd ℂ) (spfState nm mass omega p r t)
      * (((w r * v t : ℝ) : ℂ) * spfState nm mass omega q r t)
      = ((spfNorm (nm p).1 (nm p).2 mass omega * spfNorm (nm q).1 (nm q).2 mass omega
        * (w r * spfRadial (nm p).1 (nm p).2 mass omega r
          * spfRadial (nm q).1 (nm q).2 mass omega r) : ℝ) : ℂ)
        * (Complex.exp (-(Complex.I * (nm p).2 * t)) * (v t : ℂ) * Complex.exp (Complex.I * (nm q).2 * t)) := by
    intro t
    rw [bra_ket]
    push_cast
    ring
  simp only [this]
  rw [intervalIntegral.integral_const_mul, angular]
  push_cast
  ring

/-- Matrix elements of a product of a radial and an angular function. -/
theorem plane_factor (nm : ℕ → ℤ × ℤ) (mass omega : ℝ) (w v : ℝ → ℝ) (p q : ℕ) :
    planeInner (spfState nm mass omega p) (fun r t => ((w r * v t : ℝ) : ℂ) * spfState nm mass omega q r t)
      = ((spfNorm (nm p).1 (nm p).2 mass omega * spfNorm (nm q).1 (nm q).2 mass omega
          * ∫ r in Set.Ioi (0 : ℝ), r * w r * spfRadial (nm p).1 (nm p).2 mass omega r
            * spfRadial (nm q).1 (nm q).2 mass omega r : ℝ) : ℂ) * angular v (nm p).2 (nm q).2 := by
  unfold planeInner planeIntegral
  simp only [plane_inner_factor]
  rw [integral_mul_const]
  congr 1
  rw [← integral_const_mul]
  exact integral_ofReal

/-- Matrix elements of sums of such products. -/
theorem plane_add (nm : ℕ → ℤ × ℤ) (mass omega : ℝ) (w v w' v' : ℝ → ℝ) (hv : Continuous v)
    (hv' : Continuous v') (p q : ℕ)
    (hw : IntegrableOn (fun r => r * w r * spfRadial (nm p).1 (nm p).2 mass omega r
            * spfRadial (nm q).1 (nm q).2 mass omega r) (Set.Ioi 0))
    (hw' : IntegrableOn (fun r => r * w' r * spfRadial (nm p).1 (nm p).2 mass omega r
            * spfRadial (nm q).1 (nm q).2 mass omega r) (Set.Ioi 0)) :
    planeInner (spfState nm mass omega p)
        (fun r t => ((w r * v t + w' r * v' t : ℝ) : ℂ) * spfState nm mass omega q r t)
      = planeInner (spfState nm mass omega p) (fun r t => ((w r * v t : ℝ) : ℂ) * spfState nm mass omega q r t)
        + planeInner (spfState nm mass omega p)
          (fun r t => ((w' r * v' t : ℝ) : ℂ) * spfState nm mass omega q r t) := by
  unfold planeInner planeIntegral
  have cont : ∀ (w v : ℝ → ℝ) (r : ℝ), Continuous v → IntervalIntegrable (fun t =>
      (starRingEnd ℂ) (spfState nm mass omega p r t)
        * (((w r * v t : ℝ) : ℂ) * spfState nm mass omega q r t)) volume 0 (2 * Real.pi) := by
    intro w v r hv
    refine Continuous.intervalIntegrable ?_ _ _
    simp only [bra_ket]
    have : Continuous fun t : ℝ => ((v t : ℝ) : ℂ) := Complex.continuous_ofReal.comp hv
    push_cast
    fun_prop
  have split : ∀ r : ℝ, (∫ t in (0 : ℝ)..2 * Real.pi, (starRingEnd ℂ) (spfState nm mass omega p r t)
        * (((w r * v t + w' r * v' t : ℝ) : ℂ) * spfState nm mass omega q r t)) * (r : ℂ)
      = (∫ t in (0 : ℝ)..2 * Real.pi, (starRingEnd ℂ) (spfState nm mass omega p r t)
        * (((w r * v t : ℝ) : ℂ) * spfState nm mass omega q r t)) * (r : ℂ)
        + (∫ t in (0 : ℝ)..2 * Real.pi, (starRingEnd ℂ) (spfState nm mass omega p r t)
        * (((w' r * v' t : ℝ) : ℂ) * spfState nm mass omega q r t)) * (r : ℂ) := by
    intro r
    rw [← add_mul, ← intervalIntegral.integral_add (cont w v r hv) (cont w' v' r hv')]
    congr 2
    funext t
    push_cast
    ring
  simp only [split]
  have int : ∀ (w v : ℝ → ℝ), IntegrableOn (fun r => r * w r * spfRadial (nm p).1 (nm p).2 mass omega r
            * spfRadial (nm q).1 (nm q).2 mass omega r) (Set.Ioi 0) →
      IntegrableOn (fun r : ℝ => (∫ t in (0 : ℝ)..2 * Real.pi, (starRingEnd ℂ) (spfState nm mass omega p r t)
        * (((w r * v t : ℝ) : ℂ) * spfState nm mass omega q r t)) * (r : ℂ)) (Set.Ioi 0) := by
    intro w v hw
    simp only [plane_inner_factor]
    exact ((hw.const_mul _).ofReal).mul_const _
  exact integral_add (int w v hw) (int w' v' hw')

theorem angular_one (mp mq : ℤ) : angular (fun _ => 1) mp mq = if mp = mq then 2 * Real.pi else 0 := by
  unfold angular
  simp only [braket_exp, Complex.ofReal_one, one_mul]
  rw [integral_exp_int]
  split_ifs with h1 h2 h2 <;> first | rfl | (exfalso; omega)

/-- The oscillator functions are orthonormal, for every numbering of the quantum numbers. -/
theorem orthonormal {mass omega : ℝ} (hm : 0 < mass) (ho : 0 < omega) {nm : ℕ → ℤ × ℤ} {p q : ℕ}
    (hp : 0 ≤ (nm p).1) (hq : 0 ≤ (nm q).1) :
    planeInner (spfState nm mass omega p) (spfState nm mass omega q) = if nm p = nm q then 1 else 0 := by
  have h := plane_factor nm mass omega (fun _ => 1) (fun _ => 1) p q
  simp only [mul_one, Complex.ofReal_one, one_mul] at h
  rw [h, angular_one]
  by_cases hmm : (nm p).2 = (nm q).2
  · rw [if_pos hmm]
    have := radial_orthogonal hm ho (nm p).1 (nm q).1 (nm p).2 (nm q).2 (by rw [hmm])
    simp only [pow_one] at this
    rw [this]
    by_cases hn : nm p = nm q
    · rw [if_pos hn, ← hn, if_pos rfl]
      have := spfNorm_sq hm ho (m := (nm p).2) hp
      exact_mod_cast this
    · rw [if_neg hn, if_neg]
      · simp
      · intro e
        exact hn (Prod.ext (by omega) hmm)
  · rw [if_neg hmm, if_neg (fun e => hmm (by rw [e]))]; simp

/-! ## The Schrödinger equation of the oscillator -/

/-- `r^s e^{-b r²/2}`. -/
noncomputable def gs (b : ℝ) (s : ℕ) (r : ℝ) : ℝ := r ^ s * Real.exp (-b * r ^ 2 / 2)

noncomputable def gs1 (b : ℝ) (s : ℕ) (r : ℝ) : ℝ := s * gs b (s - 1) r - b * gs b (s + 1) r

noncomputable def gs2 (b : ℝ) (s : ℕ) (r : ℝ) : ℝ := s * gs1 b (s - 1) r - b * gs1 b (s + 1) r

theorem gs_deriv (b : ℝ) (s : ℕ) (r : ℝ) : HasDerivAt (gs b s) (gs1 b s r) r := by
  have h1 : HasDerivAt (fun r : ℝ => r ^ s) (s * r ^ (s - 1)) r := hasDerivAt_pow s r
  have h2 : HasDerivAt (fun r : ℝ => -b * r ^ 2 / 2) (-b * (2 * r) / 2) r := by
    have := ((hasDerivAt_pow 2 r).const_mul (-b)).div_const 2
    simpa using this
  have h := h1.mul h2.exp
  refine h.congr_deriv ?_
  unfold gs1 gs
  rw [pow_succ]
  ring

theorem gs1_deriv (b : ℝ) (s : ℕ) (r : ℝ) : HasDerivAt (gs1 b s) (gs2 b s r) r :=
  ((gs_deriv b (s - 1) r).const_mul (s : ℝ)).sub ((gs_deriv b (s + 1) r).const_mul b)

theorem gs_radial (b : ℝ) (s : ℕ) {r : ℝ} (hr : r ≠ 0) :
    gs2 b s r + 1 / r * gs1 b s r
      = (s : ℝ) ^ 2 / r ^ 2 * gs b s r - b * (2 * s + 2) * gs b s r + b ^ 2 * r ^ 2 * gs b s r := by
  match s with
  | 0 => simp only [gs2, gs1, gs, Nat.cast_zero]; field_simp; push_cast; ring
  | 1 => simp only [gs2, gs1, gs]; norm_num; field_simp; ring
  | s + 2 =>
    simp only [gs2, gs1, gs, show s + 2 - 1 = s + 1 from rfl, show s + 1 - 1 = s from rfl,
      show s + 2 + 1 - 1 = s + 2 from rfl]
    push_cast
    field_simp
    ring

/-- Recurrence of the Laguerre coefficients. -/
theorem lagCoeff_succ (n k i : ℕ) (hi : i < n) :
    lagCoeff n k (i + 1) * ((i + 1) * (k + i + 1)) = -((n : ℝ) - i) * lagCoeff n k i := by
  unfold lagCoeff
  have h := Nat.choose_succ_right_eq (n + k) (n - (i + 1))
  rw [show n - (i + 1) + 1 = n - i by omega, show n + k - (n - (i + 1)) = k + i + 1 by omega] at h
  have h' : ((n + k).choose (n - i) : ℝ) * ((n : ℝ) - i) = (n + k).choose (n - (i + 1)) * (k + i + 1) := by
    have := congrArg (fun z : ℕ => (z : ℝ)) h
    push_cast [Nat.cast_sub hi.le] at this
    exact this
  rw [Nat.factorial_succ]
  have f : (i.factorial : ℝ) ≠ 0 := by positivity
  have g : (i : ℝ) + 1 ≠ 0 := by positivity
  push_cast
  field_simp
  rw [pow_succ]
  linear_combination ((-1) ^ i) * h'

noncomputable def radial0 (n k : ℕ) (mass omega r : ℝ) : ℝ :=
  ∑ i ∈ range (n + 1), radCoeff n k mass omega i * gs (mass * omega) (k + 2 * i) r

noncomputable def radial1 (n k : ℕ) (mass omega r : ℝ) : ℝ :=
  ∑ i ∈ range (n + 1), radCoeff n k mass omega i * gs1 (mass * omega) (k + 2 * i) r

noncomputable def radial2 (n k : ℕ) (mass omega r : ℝ) : ℝ :=
  ∑ i ∈ range (n + 1), radCoeff n k mass omega i * gs2 (mass * omega) (k + 2 * i) r

theorem radial0_deriv (n k : ℕ) (mass omega r : ℝ) :
    HasDerivAt (radial0 n k mass omega) (radial1 n k mass omega r) r :=
  HasDerivAt.fun_sum fun i _ => (gs_deriv _ _ r).const_mul _

theorem radial1_deriv (n k : ℕ) (mass omega r : ℝ) :
    HasDerivAt (radial1 n k mass omega) (radial2 n k mass omega r) r :=
  HasDerivAt.fun_sum fun i _ => (gs1_deriv _ _ r).const_mul _

/-- The radial Schrödinger equation. -/
theorem radial_equation (n k : ℕ) (mass omega : ℝ) {r : ℝ} (hr : r ≠ 0) :
    radial2 n k mass omega r + 1 / r * radial1 n k mass omega r
      - (k : ℝ) ^ 2 / r ^ 2 * radial0 n k mass omega r
      - (mass * omega) ^ 2 * r ^ 2 * radial0 n k mass omega r
      = -(2 * (mass * omega) * (2 * n + k + 1)) * radial0 n k mass omega r := by
  have e : radial2 n k mass omega r + 1 / r * radial1 n k mass omega r
      - (k : ℝ) ^ 2 / r ^ 2 * radial0 n k mass omega r
      - (mass * omega) ^ 2 * r ^ 2 * radial0 n k mass omega r
      + (2 * (mass * omega) * (2 * n + k + 1)) * radial0 n k mass omega r
      = ∑ i ∈ range (n + 1), radCoeff n k mass omega i * (4 * i * (k + i) / r ^ 2)
          * gs (mass * omega) (k + 2 * i) r
        + ∑ i ∈ range (n + 1), radCoeff n k mass omega i * (4 * (mass * omega) * (n - i))
          * gs (mass * omega) (k + 2 * i) r := by
    unfold radial0 radial1 radial2
    simp only [mul_sum]
    rw [← sum_add_distrib, ← sum_sub_distrib, ← sum_sub_distrib, ← sum_add_distrib, ← sum_add_distrib]
    refine sum_congr rfl fun i _ => ?_
    have h := gs_radial (mass * omega) (k + 2 * i) hr
    push_cast at h
    linear_combination (radCoeff n k mass omega i) * h
  have z : ∑ i ∈ range (n + 1), radCoeff n k mass omega i * (4 * i * (k + i) / r ^ 2)
          * gs (mass * omega) (k + 2 * i) r
        + ∑ i ∈ range (n + 1), radCoeff n k mass omega i * (4 * (mass * omega) * (n - i))
          * gs (mass * omega) (k + 2 * i) r = 0 := by
    rw [sum_range_succ', sum_range_succ (n := n)]
    simp only [Nat.cast_zero, mul_zero, zero_mul, zero_div, add_zero, sub_self]
    rw [← sum_add_distrib]
    refine sum_eq_zero fun i hi => ?_
    have hi' : i < n := mem_range.1 hi
    have h := lagCoeff_succ n k i hi'
    unfold radCoeff gs
    rw [show k + 2 * (i + 1) = k + 2 * i + 2 by ring, pow_add r (k + 2 * i) 2, pow_succ (mass * omega) i]
    push_cast
    have hy : r ^ 2 / r ^ 2 = 1 := div_self (by positivity)
    generalize Real.exp (-(mass * omega) * r ^ 2 / 2) = E
    generalize r ^ (k + 2 * i) = X
    generalize r ^ 2 = Y at hy ⊢
    linear_combination (bohrRadius mass omega ^ k * (mass * omega) ^ i * (mass * omega) * X * E * 4) * h
      + (lagCoeff n k (i + 1) * bohrRadius mass omega ^ k * (mass * omega) ^ i * (mass * omega) * X * E * 4
        * (i + 1) * (k + i + 1)) * hy
  linear_combination e + z

/-- The oscillator functions are eigenfunctions of the oscillator's Hamilton operator. -/
theorem oscillator_eigen {mass omega : ℝ} (hm : 0 < mass) (ho : 0 < omega) (nm : ℕ → ℤ × ℤ) (q : ℕ)
    (hq : 0 ≤ (nm q).1) {r : ℝ} (hr : 0 < r) (t : ℝ) :
    planeHamiltonian mass (fun r _ => 1 / 2 * mass * omega ^ 2 * r ^ 2) (spfState nm mass omega q) r t
      = ((omega * getShellEnergy (nm q).1 (nm q).2 : ℝ) : ℂ) * spfState nm mass omega q r t := by
  obtain ⟨n, hn⟩ : ∃ n : ℕ, (nm q).1 = n := ⟨(nm q).1.toNat, by omega⟩
  generalize hmm : (nm q).2 = m at *
  have hfun : ∀ r t, spfState nm mass omega q r t = (spfNorm n m mass omega : ℂ)
      * Complex.exp (Complex.I * m * t) * (radial0 n m.natAbs mass omega r : ℂ) := by
    intro r t
    unfold spfState spfTheta
    simp only [hn, hmm]
    rw [spfRadial_expand hm ho]
    rfl
  have d1 : ∀ t, (deriv fun r => spfState nm mass omega q r t) = fun r => (spfNorm n m mass omega : ℂ)
      * Complex.exp (Complex.I * m * t) * (radial1 n m.natAbs mass omega r : ℂ) := by
    intro t
    funext r
    simp only [hfun]
    exact ((radial0_deriv n m.natAbs mass omega r).ofReal_comp.const_mul _).deriv
  have d2 : deriv (deriv fun r => spfState nm mass omega q r t) r = (spfNorm n m mass omega : ℂ)
      * Complex.exp (Complex.I * m * t) * (radial2 n m.natAbs mass omega r : ℂ) := by
    rw [d1]
    exact ((radial1_deriv n m.natAbs mass omega r).ofReal_comp.const_mul _).deriv
  have e1 : ∀ (c : ℂ) (t : ℝ), HasDerivAt (fun t : ℝ => c * Complex.exp (Complex.I * m * t))
      (c * (Complex.I * m) * Complex.exp (Complex.I * m * t)) t := by
    intro c t
    have h0 : HasDerivAt (fun t : ℝ => Complex.I * m * (t : ℂ)) (Complex.I * m) t := by
      have := (Complex.ofRealCLM.hasDerivAt (x := t)).const_mul (Complex.I * (m : ℂ))
      simpa using this
    refine (h0.cexp.const_mul c).congr_deriv ?_
    ring
  have d3 : deriv (deriv fun t => spfState nm mass omega q r t) t = (spfNorm n m mass omega : ℂ)
      * Complex.exp (Complex.I * m * t) * (radial0 n m.natAbs mass omega r : ℂ) * -(m : ℂ) ^ 2 := by
    have : (deriv fun t => spfState nm mass omega q r t) = fun t : ℝ =>
        ((spfNorm n m mass omega : ℂ) * (radial0 n m.natAbs mass omega r : ℂ) * (Complex.I * m))
          * Complex.exp (Complex.I * m * t) := by
      funext t
      simp only [hfun]
      have h := (e1 ((spfNorm n m mass omega : ℂ) * (radial0 n m.natAbs mass omega r : ℂ)) t)
      rw [show (fun t : ℝ => (spfNorm n m mass omega : ℂ) * Complex.exp (Complex.I * m * t)
        * (radial0 n m.natAbs mass omega r : ℂ)) = fun t : ℝ => (spfNorm n m mass omega : ℂ)
          * (radial0 n m.natAbs mass omega r : ℂ) * Complex.exp (Complex.I * m * t) from by
            funext t; ring]
      exact h.deriv
    rw [this, (e1 _ t).deriv]
    linear_combination ((spfNorm n m mass omega : ℂ)
      * Complex.exp (Complex.I * m * t) * (radial0 n m.natAbs mass omega r : ℂ) * (m : ℂ) ^ 2) * Complex.I_sq
  unfold planeHamiltonian polarLaplacian
  rw [d2, d1, d3, hfun]
  have hE : (getShellEnergy (nm q).1 m : ℤ) = 2 * (n : ℤ) + m.natAbs + 1 := by
    rw [hn]; unfold getShellEnergy; rw [Int.abs_eq_natAbs]
  have hsq : ((m.natAbs : ℤ)) ^ 2 = m ^ 2 := Int.natAbs_sq m
  have hre := radial_equation n m.natAbs mass omega hr.ne'
  generalize m.natAbs = k at hE hsq hre ⊢
  have hc := congrArg (fun z : ℝ => (z : ℂ)) hre
  push_cast at hc
  have hmabs : (k : ℂ) ^ 2 = (m : ℂ) ^ 2 := by
    have := congrArg (fun z : ℤ => (z : ℂ)) hsq
    push_cast at this
    exact this
  rw [hE]
  rw [hmabs] at hc
  have hm' : (mass : ℂ) ≠ 0 := by exact_mod_cast hm.ne'
  push_cast
  have hi : (mass : ℂ)⁻¹ * mass = 1 := inv_mul_cancel₀ hm'
  linear_combination (-(1 / (2 * (mass : ℂ))) * (spfNorm n m mass omega : ℂ)
      * Complex.exp (Complex.I * m * t)) * hc
    - ((spfNorm n m mass omega : ℂ) * Complex.exp (Complex.I * m * t) * (radial0 n k mass omega r : ℂ)
      * (1 / 2 * mass * omega ^ 2 * r ^ 2 - omega * (2 * n + k + 1))) * hi

end QS.TwoDim
