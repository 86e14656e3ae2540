import Verif.Spec.Samples
import Verif.Spec.Positive
import Verif.Props.Density
import Verif.Props.OneDim
import Verif.Props.TwoDim
import Verif.Props.Magnetic
import Verif.Props.SincDvr
import Verif.Props.Consistent

/-!
# Integrals of the particle density, positivity (C105)
-/

namespace QS.Props

open NDArray BasisSet Finset PyM

variable {K : Type} [PyScalar K]

/-- The elements after a change of basis are the integrals of the new functions. -/
theorem Elements.change {X : Type} {l n : ℕ} {J : (X → K) → K} {φ φt : ℕ → X → K} {A : ℕ → ℕ → K}
    (h : Elements l J φ φt A) (C Ct : NDArray K) :
    Elements n J (ketCombination l C φ) (braCombination l Ct φt)
      (fun p q => ∑ a ∈ range l, ∑ c ∈ range l, Ct.get [p, a] * A a c * C.get [c, q]) := by
  have expand : ∀ p q z, braCombination l Ct φt p z * ketCombination l C φ q z
      = ∑ a ∈ range l, ∑ c ∈ range l, (Ct.get [p, a] * C.get [c, q]) * (φt a z * φ c z) := by
    intro p q z
    unfold braCombination ketCombination
    rw [sum_mul_sum]
    exact sum_congr rfl fun a _ => sum_congr rfl fun c _ => by ring
  have one : ∀ p q, J (fun z => braCombination l Ct φt p z * ketCombination l C φ q z)
      = ∑ a ∈ range l, ∑ c ∈ range l, Ct.get [p, a] * A a c * C.get [c, q] := by
    intro p q
    simp only [expand]
    rw [h.lin]
    refine sum_congr rfl fun a ha => sum_congr rfl fun c hc => ?_
    rw [h.eq a (mem_range.1 ha) c (mem_range.1 hc)]
    ring
  refine ⟨fun p _ q _ => (one p q).symm, fun c => ?_⟩
  have e : (fun z => ∑ p ∈ range n, ∑ q ∈ range n, c p q
      * (braCombination l Ct φt p z * ketCombination l C φ q z)) = fun z =>
      ∑ a ∈ range l, ∑ d ∈ range l, (∑ p ∈ range n, ∑ q ∈ range n, c p q * (Ct.get [p, a] * C.get [d, q]))
        * (φt a z * φ d z) := by
    funext z
    simp only [expand, mul_sum, sum_mul]
    rw [sum_congr rfl fun p _ => sum_comm, sum_comm]
    refine sum_congr rfl fun a _ => ?_
    rw [sum_congr rfl fun p _ => sum_comm, sum_comm]
    refine sum_congr rfl fun d _ => ?_
    exact sum_congr rfl fun p _ => sum_congr rfl fun q _ => by ring
  rw [e, h.lin]
  simp only [one, mul_sum, sum_mul]
  symm
  rw [sum_congr rfl fun p _ => sum_comm, sum_comm]
  refine sum_congr rfl fun a ha => ?_
  rw [sum_congr rfl fun p _ => sum_comm, sum_comm]
  refine sum_congr rfl fun d hd => ?_
  refine sum_congr rfl fun p _ => sum_congr rfl fun q _ => ?_
  rw [h.eq a (mem_range.1 ha) d (mem_range.1 hd)]
  ring

/-- **C105** `change_basis` keeps the relation between the functions on the grid and the elements: afterwards the
basis set describes the new functions `φ C` with the dual functions `C̃ φt`. -/
theorem C105_change_basis {X : Type} {b b' : BasisSet K} {C : NDArray K} {Ct : Option (NDArray K)} {l : ℕ} {r : Unit}
    (hb : WellFormed b l) (h : (changeBasis C Ct).run b = (.ok r, b')) {g : List ℕ} {γ : List ℕ → X}
    {φ φt : ℕ → X → K} {I : (X → K) → K} {w : ℕ → X → K} (hf : OfFunctions b l g γ φ φt I w) :
    ∃ n, C.shape = [l, n] ∧
      OfFunctions b' n g γ (ketCombination l C φ) (braCombination l (Ct.getD C.conj.T) φt) I w := by
  obtain ⟨n, hC, hCt, -, rfl⟩ := changeBasis_inv hb h
  obtain ⟨x, hx, sx, vx⟩ := hf.samples.ket
  obtain ⟨y, hy, sy, vy⟩ := hf.samples.bra
  obtain ⟨s, hs, es⟩ := hf.overlap
  obtain ⟨d, hd, ed⟩ := hf.dipole
  have hbra : (changed b C (Ct.getD C.conj.T) l n).bra = some (braArr y (Ct.getD C.conj.T) l n) := by
    have : (changed b C (Ct.getD C.conj.T) l n).braSpf = some (braArr y (Ct.getD C.conj.T) l n) := by
      simp only [changed, hx, hy, Option.isSome_some, if_true, Option.map_some]
    unfold BasisSet.bra
    rw [this]
  refine ⟨n, hC, ⟨⟨spfArr x C l n, by simp [changed, hx], by simp [spfArr, sx], fun p hp i hi => ?_⟩,
    ⟨_, hbra, by simp [braArr, sy], fun p hp i hi => ?_⟩⟩,
    ⟨oneBodyArr s C (Ct.getD C.conj.T) n l l n, by simp only [changed, hs, Option.map_some], ?_⟩,
    ⟨dipoleArr d C (Ct.getD C.conj.T) b.dim l n, by simp only [changed, hd, Option.map_some], fun k hk => ?_⟩⟩
  · rw [spfArr_get hp (by rw [sx]; exact hi)]
    exact sum_congr rfl fun a ha => by rw [vx a (mem_range.1 ha) i hi]
  · rw [braArr_get hp (by rw [sy]; exact hi)]
    exact sum_congr rfl fun a ha => by rw [vy a (mem_range.1 ha) i hi]
  · have := Elements.change (n := n) es C (Ct.getD C.conj.T)
    refine ⟨fun p hp q hq => ?_, this.lin⟩
    rw [← this.eq p hp q hq, oneBodyArr_get hp hq]
  · have := Elements.change (n := n) (ed k hk) C (Ct.getD C.conj.T)
    refine ⟨fun p hp q hq => ?_, this.lin⟩
    rw [← this.eq p hp q hq, dipoleArr_get (show k < b.dim from hk) hp hq]

/-- The density of any basis set whose functions and dual functions are in arrays of one grid. -/
theorem density_values {b : BasisSet K} {n : ℕ} {g : List ℕ} {x y rho d : NDArray K} (hx : b.spf = some x)
    (hy : b.bra = some y) (sx : x.shape = n :: g) (sy : y.shape = n :: g) (sr : rho.shape = [n, n])
    (r : ((computeParticleDensity rho none none).run b).1 = .ok d) :
    d.shape = g ∧ ∀ i, InRange g i → d.get i = densityAt n rho x y i := by
  rw [density_none_run hx hy] at r
  have ht : y.dtype = x.dtype := by
    by_contra hne
    simp [computeParticleDensityFn, sx, sy, hne] at r
  obtain ⟨np, hnp⟩ : ∃ np, b.np = some np := by
    cases hnp : b.np with
    | some np => exact ⟨np, rfl⟩
    | none => simp [computeParticleDensityFn, sx, sy, ht, hnp, needNp, bind, Except.bind] at r
  rw [hnp] at r
  rcases Nat.eq_zero_or_pos n with rfl | hn
  · simp only [computeParticleDensityFn, sx, sy, ht, ne_eq, not_true_eq_false,
      if_false, needNp, bind, Except.bind, shapeAt, List.getElem?_cons_zero, List.range_zero,
      List.foldlM_nil] at r
    obtain rfl := Except.ok.inj r
    exact ⟨by simp [zeros], fun i _ => by simp [densityAt]⟩
  by_cases hdr : x.dtype.promote rho.dtype = x.dtype
  · rw [densityFn_eq sr sx sy ht hdr] at r
    obtain rfl := Except.ok.inj r
    refine ⟨by simp [densityArr], fun i hi => ?_⟩
    rw [densityArr, ofFn_get_of hi]
    rfl
  · rw [densityFn_type hn sr sx sy ht hdr] at r
    simp at r

/-- **C105** The particle density on the grid is that of a function on the space, whose integral is the density
matrix contracted with the elements: with `s` the number of particles, with the dipole moment the mean position. -/
theorem C105_integral {X : Type} {b : BasisSet K} {n : ℕ} {g : List ℕ} {γ : List ℕ → X} {φ φt : ℕ → X → K}
    {I : (X → K) → K} {w : ℕ → X → K} (hf : OfFunctions b n g γ φ φt I w) {rho d : NDArray K} (sr : rho.shape = [n, n])
    (r : ((computeParticleDensity rho none none).run b).1 = .ok d) :
    d.shape = g ∧ (∀ i, InRange g i → d.get i = densityOn n rho φ φt (γ i)) ∧
    ∃ s x, b.s = some s ∧ b.dipole = some x ∧
      I (densityOn n rho φ φt) = ∑ p ∈ range n, ∑ q ∈ range n, rho.get [q, p] * s.get [p, q] ∧
      ∀ k < b.dim, (I fun z => w k z * densityOn n rho φ φt z)
        = ∑ p ∈ range n, ∑ q ∈ range n, rho.get [q, p] * x.get [k, p, q] := by
  obtain ⟨x, hx, sx, vx⟩ := hf.samples.ket
  obtain ⟨y, hy, sy, vy⟩ := hf.samples.bra
  have lin : ∀ J A, Elements n J φ φt A →
      J (densityOn n rho φ φt) = ∑ p ∈ range n, ∑ q ∈ range n, rho.get [q, p] * A p q := by
    intro J A hJ
    have e : densityOn n rho φ φt = fun z => ∑ p ∈ range n, ∑ q ∈ range n, rho.get [q, p] * (φt p z * φ q z) := by
      funext z
      exact sum_congr rfl fun p _ => sum_congr rfl fun q _ => by ring
    rw [e, hJ.lin fun p q => rho.get [q, p]]
    exact sum_congr rfl fun p hp => sum_congr rfl fun q hq => by
      rw [hJ.eq p (mem_range.1 hp) q (mem_range.1 hq)]
  obtain ⟨s, hs, es⟩ := hf.overlap
  obtain ⟨dd, hd, ed⟩ := hf.dipole
  have lin : ∃ s x, b.s = some s ∧ b.dipole = some x ∧
      I (densityOn n rho φ φt) = ∑ p ∈ range n, ∑ q ∈ range n, rho.get [q, p] * s.get [p, q] ∧
      ∀ k < b.dim, (I fun z => w k z * densityOn n rho φ φt z)
        = ∑ p ∈ range n, ∑ q ∈ range n, rho.get [q, p] * x.get [k, p, q] :=
    ⟨s, dd, hs, hd, lin _ _ es, fun k hk => lin _ _ (ed k hk)⟩
  obtain ⟨h1, h2⟩ := density_values hx hy sx sy sr r
  refine ⟨h1, fun i hi => ?_, lin⟩
  rw [h2 i hi, densityAt, densityOn]
  exact sum_congr rfl fun p hp => sum_congr rfl fun q hq => by
    rw [vx q (mem_range.1 hq) i hi, vy p (mem_range.1 hp) i hi]

/-- **C105** With the conjugate functions as dual and a positive density matrix the density is real and not
negative at every grid point; if the occupation of no orbital exceeds one, it is at most the density of the full
basis. -/
theorem C105_bounds {b : BasisSet ℂ} {n : ℕ} {g : List ℕ} {x y rho d : NDArray ℂ} (hx : b.spf = some x)
    (hy : b.bra = some y) (sx : x.shape = n :: g) (sy : y.shape = n :: g)
    (hc : ∀ p < n, ∀ i, InRange g i → y.get (p :: i) = star (x.get (p :: i))) (sr : rho.shape = [n, n])
    (pos : ∀ v, (oneForm n rho v).im = 0 ∧ 0 ≤ (oneForm n rho v).re)
    (r : ((computeParticleDensity rho none none).run b).1 = .ok d) (i : List ℕ) (hi : InRange g i) :
    (d.get i).im = 0 ∧ 0 ≤ (d.get i).re ∧
    ((∀ v, (oneForm n rho v).re ≤ ∑ p ∈ range n, ‖v p‖ ^ 2) →
      (d.get i).re ≤ ∑ p ∈ range n, ‖x.get (p :: i)‖ ^ 2) := by
  have e : d.get i = oneForm n rho fun p => star (x.get (p :: i)) := by
    rw [(density_values hx hy sx sy sr r).2 i hi, densityAt, oneForm, sum_comm]
    refine sum_congr rfl fun q hq => sum_congr rfl fun p hp => ?_
    rw [hc p (mem_range.1 hp) i hi, star_star]
    ring
  rw [e]
  refine ⟨(pos _).1, (pos _).2, fun h => (h _).trans (le_of_eq ?_)⟩
  exact sum_congr rfl fun p _ => by rw [norm_star]

/-- The density matrix of a full basis is positive and at most one, so every density of it lies between zero and
the sum of the squares of the functions (here it is that sum). -/
example : (∀ v, (oneForm 2 (eye 2) v).im = 0 ∧ 0 ≤ (oneForm 2 (eye 2) v).re) ∧
    ∀ v, (oneForm 2 (eye 2) v).re ≤ ∑ p ∈ range 2, ‖v p‖ ^ 2 := by
  have e : ∀ v : ℕ → ℂ, oneForm 2 (eye 2) v = ((‖v 0‖ ^ 2 + ‖v 1‖ ^ 2 : ℝ) : ℂ) := by
    intro v
    simp only [oneForm, sum_range_succ, sum_range_zero, eye_get 2 0 0 (by norm_num), eye_get 2 0 1 (by norm_num),
      eye_get 2 1 0 (by norm_num), eye_get 2 1 1 (by norm_num)]
    push_cast
    rw [← Complex.conj_mul', ← Complex.conj_mul']
    simp
  refine ⟨fun v => ?_, fun v => ?_⟩
  · rw [e, Complex.ofReal_im, Complex.ofReal_re]
    exact ⟨rfl, by positivity⟩
  · rw [e, Complex.ofReal_re]
    simp [sum_range_succ]

/-! ## The constructors -/

section constructors

open MeasureTheory Spec OneDim TwoDim SincDvr Idx Coulomb

theorem elements_trapezoid {l n : ℕ} {x : ℕ → ℝ} {w : ℕ → ℂ} {φ φt : ℕ → ℕ → ℂ} {A : ℕ → ℕ → ℂ}
    (h : ∀ p < l, ∀ q < l, A p q = trapezoid n x fun i => w i * (φt p i * φ q i)) :
    Elements l (fun F => trapezoid n x fun i => w i * F i) φ φt A := by
  refine ⟨h, fun c => ?_⟩
  unfold trapezoid
  simp only [mul_sum]
  rw [sum_congr rfl fun p _ => sum_comm, sum_comm]
  refine sum_congr rfl fun i _ => ?_
  simp only [← sum_add_distrib, sum_div, mul_sum]
  exact sum_congr rfl fun p _ => sum_congr rfl fun q _ => by ring

theorem elements_integral {l : ℕ} {w : ℝ → ℂ} {φ φt : ℕ → ℝ → ℂ} {A : ℕ → ℕ → ℂ}
    (h : ∀ p < l, ∀ q < l, A p q = ∫ x, w x * (φt p x * φ q x))
    (hi : ∀ p q, Integrable fun x => w x * (φt p x * φ q x)) :
    Elements l (fun F => ∫ x, w x * F x) φ φt A := by
  refine ⟨h, fun c => ?_⟩
  dsimp only
  simp only [mul_sum]
  rw [integral_finsetSum]
  · refine sum_congr rfl fun p _ => ?_
    rw [integral_finsetSum]
    · refine sum_congr rfl fun q _ => ?_
      rw [← integral_const_mul]
      congr 1
      funext x
      ring
    · intro q _
      refine ((hi p q).const_mul (c p q)).congr (Filter.Eventually.of_forall fun x => ?_)
      ring
  · intro p _
    refine integrable_finsetSum _ fun q _ => ?_
    refine ((hi p q).const_mul (c p q)).congr (Filter.Eventually.of_forall fun x => ?_)
    ring

theorem elements_plane {l : ℕ} {w : ℝ × ℝ → ℂ} {φ φt : ℕ → ℝ × ℝ → ℂ} {A : ℕ → ℕ → ℂ}
    (h : ∀ p < l, ∀ q < l, A p q = planeIntegral fun r t => w (r, t) * (φt p (r, t) * φ q (r, t)))
    (hc : ∀ p q r, Continuous fun t => w (r, t) * (φt p (r, t) * φ q (r, t)))
    (hi : ∀ p q, IntegrableOn (fun r : ℝ => (∫ t in (0 : ℝ)..2 * Real.pi,
      w (r, t) * (φt p (r, t) * φ q (r, t))) * (r : ℂ)) (Set.Ioi 0)) :
    Elements l (fun F => planeIntegral fun r t => w (r, t) * F (r, t)) φ φt A := by
  refine ⟨h, fun c => ?_⟩
  dsimp only
  unfold planeIntegral
  have hI : ∀ (p q : ℕ) (r : ℝ), IntervalIntegrable (fun t => w (r, t) * (c p q * (φt p (r, t) * φ q (r, t))))
      volume 0 (2 * Real.pi) := by
    intro p q r
    have := ((hc p q r).const_smul (c p q)).intervalIntegrable (μ := volume) 0 (2 * Real.pi)
    refine IntervalIntegrable.congr (fun t _ => ?_) this
    exact (mul_left_comm _ _ _)
  have hin : ∀ (p q : ℕ) (r : ℝ), (∫ t in (0 : ℝ)..2 * Real.pi, w (r, t) * (c p q * (φt p (r, t) * φ q (r, t))))
      * (r : ℂ) = c p q * ((∫ t in (0 : ℝ)..2 * Real.pi, w (r, t) * (φt p (r, t) * φ q (r, t))) * (r : ℂ)) := by
    intro p q r
    rw [← mul_assoc, ← intervalIntegral.integral_const_mul]
    congr 2
    funext t
    ring
  have e : ∀ r : ℝ, (∫ t in (0 : ℝ)..2 * Real.pi, w (r, t) * ∑ p ∈ range l, ∑ q ∈ range l,
      c p q * (φt p (r, t) * φ q (r, t))) * (r : ℂ) = ∑ p ∈ range l, ∑ q ∈ range l,
      c p q * ((∫ t in (0 : ℝ)..2 * Real.pi, w (r, t) * (φt p (r, t) * φ q (r, t))) * (r : ℂ)) := by
    intro r
    simp only [mul_sum]
    rw [intervalIntegral.integral_finsetSum, sum_mul]
    · refine sum_congr rfl fun p _ => ?_
      rw [intervalIntegral.integral_finsetSum fun q _ => hI p q r, sum_mul]
      exact sum_congr rfl fun q _ => hin p q r
    · intro p _
      have := IntervalIntegrable.sum (range l) (f := fun q t => w (r, t) * (c p q * (φt p (r, t) * φ q (r, t))))
        fun q _ => hI p q r
      refine IntervalIntegrable.congr (fun t _ => ?_) this
      simp
  simp only [e]
  rw [integral_finsetSum _ fun p _ => integrable_finsetSum _ fun q _ => (hi p q).const_mul _]
  refine sum_congr rfl fun p _ => ?_
  rw [integral_finsetSum _ fun q _ => (hi p q).const_mul _]
  exact sum_congr rfl fun q _ => integral_const_mul _ _

/-- **C105** `ODQD`: functions on the grid, integrals with the trapezoidal rule, the dipole moment is `x + β x²`. -/
theorem C105_odqd {eigh : NDArray ℂ → Except PyErr (NDArray ℂ × NDArray ℂ)} (he : IsEigh eigh)
    {l num : ℕ} {L : ℝ} (hL : 0 < L) (h3 : 3 ≤ num) (hl : l ≤ num - 2) (a alpha beta : ℝ)
    (V : ℝ → ℝ) (hm : Bool) (np : Module) (sp an : Bool) :
    ∃ b φ, odqd eigh l L num a alpha beta V hm np sp an = .ok b ∧
      let x : ℕ → ℝ := fun i => -L + i * (2 * L / ((num : ℝ) - 1))
      OfFunctions b l [num] (fun i => i.getD 0 0) φ (fun p i => star (φ p i)) (trapezoid num x)
        (fun _ i => ((x i + beta * x i ^ 2 : ℝ) : ℂ)) := by
  obtain ⟨b, hb, hC⟩ := C91_odqd he hL h3 hl a alpha beta V hm np sp an
  obtain ⟨b', f, s, h, g1, hf, hs, -, sf, -, -, -, h5, -⟩ := C56_functions he hL h3 hl a alpha beta V hm np sp an
  rw [hb] at g1; cases g1
  obtain ⟨b', f', d, g1, hf', hd, -, h6⟩ := C57_dipole he hL h3 hl a alpha beta V hm np sp an
  rw [hb] at g1; cases g1
  rw [hf] at hf'; cases hf'
  obtain ⟨y, x', hy, hx', sy, vy⟩ := hC.spf
  rw [hf] at hy; cases hy
  refine ⟨b, fun p i => f.get [p, i], hb, ⟨⟨f, hf, sf, fun p hp i hi => ?_⟩, ⟨x', hx', by rw [sy, sf],
    fun p hp i hi => ?_⟩⟩, ⟨s, hs, ?_⟩, ⟨d, hd, fun k hk => ?_⟩⟩
  · obtain ⟨i, rfl, -⟩ := inRange_one.1 hi
    rfl
  · rw [vy _ (by rw [sf]; exact ⟨hp, hi⟩)]
    obtain ⟨i, rfl, -⟩ := inRange_one.1 hi
    rfl
  · have := elements_trapezoid (w := fun _ => 1) (n := num) (x := fun i => -L + i * (2 * L / ((num : ℝ) - 1)))
      (l := l) (φ := fun p i => f.get [p, i]) (φt := fun p i => star (f.get [p, i])) (A := fun p q => s.get [p, q])
      (fun p hp q hq => by simp only [one_mul]; exact h5 p q hp hq)
    simpa only [one_mul] using this
  · rw [hC.dim_eq] at hk
    obtain rfl : k = 0 := by omega
    refine elements_trapezoid fun p hp q hq => ?_
    rw [(h6 p q hp hq).1]
    congr 1
    funext i
    simp only [Complex.star_def]
    ring

theorem ho_integrable {omega : ℝ} (ho : 0 < omega) (P : Polynomial ℝ) (n m : ℕ) :
    Integrable fun x => P.eval (√omega * x) * hoFunction omega n x * hoFunction omega m x := by
  have h := ((hermite_integrable P n m).comp_mul_left' (Real.sqrt_pos.2 ho).ne').const_mul
    (normalization omega n * normalization omega m)
  refine h.congr (Filter.Eventually.of_forall fun x => ?_)
  dsimp only
  unfold hoFunction
  have e : Real.exp (-(Real.sqrt omega * x) ^ 2)
      = Real.exp (-(1 / 2) * omega * x ^ 2) * Real.exp (-(1 / 2) * omega * x ^ 2) := by
    rw [← Real.exp_add, mul_pow, Real.sq_sqrt ho.le]
    congr 1
    ring
  rw [e]
  ring

/-- **C105** `ODHO`: functions on the line; the dipole moment is `x`. -/
theorem C105_odho (l : ℕ) (L : ℝ) {num : ℕ} (h2 : 2 ≤ num) {omega : ℝ} (ho : 0 < omega)
    (a alpha beta : ℝ) (np : Module) (sp an : Bool) :
    ∃ b φ, odho l L num omega a alpha beta np sp an = .ok b ∧
      OfFunctions b l [num] (fun i => -L + i.getD 0 0 * (2 * L / ((num : ℝ) - 1))) φ (fun p x => star (φ p x))
        (fun F => ∫ x : ℝ, F x) (fun _ x => (x : ℂ)) := by
  obtain ⟨b, hb, hC⟩ := C91_odho l L h2 omega a alpha beta np sp an
  obtain ⟨b', g1, F, -, hd⟩ := odho_ok l L h2 omega a alpha beta np sp an
  rw [hb] at g1; cases g1
  obtain ⟨y, x', hy, hx', sy, vy⟩ := hC.spf
  rw [F.spf_eq] at hy; cases hy
  have val : ∀ p i, p < l → i < num → (odhoSpf l num L omega).get [p, i]
      = ((hoFunction omega p (-L + i * (2 * L / ((num : ℝ) - 1))) : ℝ) : ℂ) := by
    intro p i hp hi
    unfold odhoSpf
    rw [ofFn_get_of (by exact ⟨hp, hi, trivial⟩)]
    simp only [List.getD_cons_zero, List.getD_cons_succ, TwoDim.linspace]
    congr 3
    ring
  have base := ho_integrable ho
  have pr : ∀ p q x, star ((hoFunction omega p x : ℝ) : ℂ) * ((hoFunction omega q x : ℝ) : ℂ)
      = ((hoFunction omega p x * hoFunction omega q x : ℝ) : ℂ) := fun p q x => by
    rw [Complex.star_def, Complex.conj_ofReal]; push_cast; ring
  refine ⟨b, fun p x => ((hoFunction omega p x : ℝ) : ℂ), hb,
    ⟨⟨_, F.spf_eq, rfl, fun p hp i hi => ?_⟩, ⟨x', hx', by rw [sy]; rfl, fun p hp i hi => ?_⟩⟩,
    ⟨_, F.s_eq, ?_⟩, ⟨_, hd, fun k hk => ?_⟩⟩
  · obtain ⟨i, rfl, hj⟩ := inRange_one.1 hi
    exact val p i hp hj
  · rw [vy _ (by exact ⟨hp, hi⟩)]
    obtain ⟨i, rfl, hj⟩ := inRange_one.1 hi
    rw [val p i hp hj]
    rfl
  · have := elements_integral (l := l) (w := fun _ => 1) (φ := fun p x => ((hoFunction omega p x : ℝ) : ℂ))
      (φt := fun p x => star ((hoFunction omega p x : ℝ) : ℂ)) (A := fun p q => (eye l : NDArray ℂ).get [p, q])
      (fun p hp q hq => by
        simp only [pr, one_mul]
        rw [integral_complex_ofReal, eye_get l p q hp]
        have := ho_orthonormal ho p q
        unfold lineInner at this
        rw [this]
        by_cases hpq : p = q <;> simp [hpq])
      (fun p q => by
        simp only [pr, one_mul]
        have := (base 1 p q).ofReal (𝕜 := ℂ)
        simpa using this)
    simpa only [one_mul] using this
  · rw [hC.dim_eq] at hk
    obtain rfl : k = 0 := by omega
    refine elements_integral (fun p hp q hq => ?_) fun p q => ?_
    · rw [ofFn_get_of (by exact ⟨by omega, hp, hq, trivial⟩)]
      simp only [List.getD_cons_zero, List.getD_cons_succ, pr]
      have := odhoDip_inner ho p q
      unfold lineInner at this
      have e : ∀ x : ℝ, (x : ℂ) * ((hoFunction omega p x * hoFunction omega q x : ℝ) : ℂ)
          = ((hoFunction omega p x * (x * hoFunction omega q x) : ℝ) : ℂ) := fun x => by push_cast; ring
      simp only [e]
      rw [integral_complex_ofReal, this]
      by_cases e1 : p + 1 = q
      · rw [if_pos e1, if_pos e1]
      · rw [if_neg e1, if_neg e1]
        by_cases e2 : q + 1 = p
        · rw [if_pos e2, if_pos e2]
        · rw [if_neg e2, if_neg e2, Complex.ofReal_zero]
    · simp only [pr]
      have hs : √omega ≠ 0 := (Real.sqrt_pos.2 ho).ne'
      have := ((base Polynomial.X p q).const_mul (1 / √omega)).ofReal (𝕜 := ℂ)
      refine this.congr (Filter.Eventually.of_forall fun x => ?_)
      simp only [Polynomial.eval_X]
      have : 1 / √omega * (√omega * x * hoFunction omega p x * hoFunction omega q x)
        = x * (hoFunction omega p x * hoFunction omega q x) := by field_simp
      rw [this]
      push_cast
      rfl

/-- Two electrons in the two lowest functions with the coherence `1/2`: the density on the grid is that of a function
whose integral is 2 and whose mean position is the off-diagonal dipole element. -/
example : ∃ b d, odho 2 1 3 1 1 1 0 = .ok b ∧ ∃ rho : NDArray ℂ, rho.get [0, 1] = 1 / 2 ∧
    ((computeParticleDensity rho none none).run b).1 = .ok d ∧ ∃ f : ℝ → ℂ,
      d.get [0] = f (-1) ∧ d.get [1] = f 0 ∧ ∫ x, f x = 2 ∧ ∫ x : ℝ, (x : ℂ) * f x = (odhoDip 1 0 : ℂ) := by
  obtain ⟨b, φ, hb, hf⟩ := C105_odho 2 1 (num := 3) (by norm_num) one_pos 1 1 0 0 false false
  obtain ⟨b', g1, F, -, hd⟩ := odho_ok 2 1 (num := 3) (by norm_num) 1 1 1 0 0 false false
  rw [hb] at g1; cases g1
  set rho : NDArray ℂ := ofFn .float64 [2, 2] fun i => if i.getD 0 0 = i.getD 1 0 then 1 else 1 / 2 with hrho
  have hr : ∀ p < 2, ∀ q < 2, rho.get [p, q] = if p = q then 1 else 1 / 2 := fun p hp q hq => by
    rw [hrho, ofFn_get_of (by exact ⟨hp, hq, trivial⟩)]; rfl
  have hbra : b.bra = some (odhoSpf 2 3 1 1).conj := by
    unfold BasisSet.bra
    rw [F.bra_eq, F.spf_eq]
    rfl
  obtain ⟨d, hd', -⟩ := C27_density (rho := rho) (by rw [F.np_eq]; rfl) F.spf_eq hbra rfl rfl rfl rfl rfl
  have r : ((computeParticleDensity rho none none).run b).1 = .ok d := by rw [hd']
  obtain ⟨-, h2, s, x, hs, hx, h3, h4⟩ := C105_integral hf rfl r
  rw [F.s_eq] at hs; cases hs
  rw [hd] at hx; cases hx
  refine ⟨b, d, hb, rho, by rw [hr 0 (by norm_num) 1 (by norm_num)]; norm_num, r, _, ?_, ?_, h3.trans ?_,
    (h4 0 (by rw [F.dim_eq]; norm_num)).trans ?_⟩
  · rw [h2 [0] ⟨by norm_num, trivial⟩]; norm_num
  · rw [h2 [1] ⟨by norm_num, trivial⟩]; norm_num
  · simp only [sum_range_succ, sum_range_zero, hr 0 (by norm_num) 0 (by norm_num), hr 0 (by norm_num) 1 (by norm_num),
      hr 1 (by norm_num) 0 (by norm_num), hr 1 (by norm_num) 1 (by norm_num), eye_get 2 0 0 (by norm_num),
      eye_get 2 0 1 (by norm_num), eye_get 2 1 0 (by norm_num), eye_get 2 1 1 (by norm_num)]
    norm_num
  · have e : ∀ p < 2, ∀ q < 2, (ofFn .float64 [1, 2, 2] (fun i =>
        if i.getD 1 0 + 1 = i.getD 2 0 then (odhoDip 1 (i.getD 1 0) : ℂ)
        else if i.getD 2 0 + 1 = i.getD 1 0 then (odhoDip 1 (i.getD 2 0) : ℂ) else 0) : NDArray ℂ).get [0, p, q]
        = if p + 1 = q then (odhoDip 1 p : ℂ) else if q + 1 = p then (odhoDip 1 q : ℂ) else 0 :=
      fun p hp q hq => ofFn_get_of (by exact ⟨by norm_num, hp, hq, trivial⟩)
    simp only [sum_range_succ, sum_range_zero, hr 0 (by norm_num) 0 (by norm_num), hr 0 (by norm_num) 1 (by norm_num),
      hr 1 (by norm_num) 0 (by norm_num), hr 1 (by norm_num) 1 (by norm_num), e 0 (by norm_num) 0 (by norm_num),
      e 0 (by norm_num) 1 (by norm_num), e 1 (by norm_num) 0 (by norm_num), e 1 (by norm_num) 1 (by norm_num)]
    norm_num
    ring

/-- The weights of the two components of the dipole moment in the plane. -/
noncomputable def planeWeight (k : ℕ) (z : ℝ × ℝ) : ℂ :=
  ((if k = 0 then z.1 * Real.cos z.2 else z.1 * Real.sin z.2 : ℝ) : ℂ)

/-- The oscillator functions of any numbering. -/
theorem plane_functions {b : BasisSet ℂ} {l num : ℕ} {radiusLength omega mass : ℝ} {nm : ℕ → ℤ × ℤ}
    {np : Module} (hC : Consistent b l 2 np false false) (ho : 0 < omega) (hm : 0 < mass)
    {f s d : NDArray ℂ} (hf : b.spf = some f) (sf : f.shape = [l, num, num])
    (vf : ∀ p i j, p < l → i < num → j < num → f.get [p, i, j] = spfState nm mass omega p
        (j * (radiusLength / ((num : ℝ) - 1))) (i * (2 * Real.pi / ((num : ℝ) - 1))))
    (hs : b.s = some s) (vs : ∀ p < l, ∀ q < l,
      s.get [p, q] = planeInner (spfState nm mass omega p) (spfState nm mass omega q))
    (hd : b.dipole = some d) (vd : ∀ k < 2, ∀ p < l, ∀ q < l, d.get [k, p, q] = dipoleEntry nm omega mass k p q) :
    OfFunctions b l [num, num] (fun i => (i.getD 1 0 * (radiusLength / ((num : ℝ) - 1)),
        i.getD 0 0 * (2 * Real.pi / ((num : ℝ) - 1))))
      (fun p z => spfState nm mass omega p z.1 z.2) (fun p z => star (spfState nm mass omega p z.1 z.2))
      (fun F => planeIntegral fun r t => F (r, t)) planeWeight := by
  obtain ⟨y, x', hy, hx', sy, vy⟩ := hC.spf
  rw [hf] at hy; cases hy
  have cont : ∀ (v : ℝ → ℝ) (p q : ℕ) (r c : ℝ), Continuous v → Continuous fun t =>
      ((c * v t : ℝ) : ℂ) * (star (spfState nm mass omega p r t) * spfState nm mass omega q r t) := by
    intro v p q r c hv
    have e : ∀ t, ((c * v t : ℝ) : ℂ) * (star (spfState nm mass omega p r t) * spfState nm mass omega q r t)
        = (starRingEnd ℂ) (spfState nm mass omega p r t) * (((c * v t : ℝ) : ℂ) * spfState nm mass omega q r t) := by
      intro t; simp only [Complex.star_def]; ring
    simp only [e, bra_ket]
    have : Continuous fun t : ℝ => ((v t : ℝ) : ℂ) := Complex.continuous_ofReal.comp hv
    push_cast
    fun_prop
  have int : ∀ (w v : ℝ → ℝ) (p q : ℕ), IntegrableOn (fun r => r * w r * spfRadial (nm p).1 (nm p).2 mass omega r
            * spfRadial (nm q).1 (nm q).2 mass omega r) (Set.Ioi 0) →
      IntegrableOn (fun r : ℝ => (∫ t in (0 : ℝ)..2 * Real.pi, ((w r * v t : ℝ) : ℂ)
        * (star (spfState nm mass omega p r t) * spfState nm mass omega q r t)) * (r : ℂ)) (Set.Ioi 0) := by
    intro w v p q hw
    have e : ∀ r t, ((w r * v t : ℝ) : ℂ) * (star (spfState nm mass omega p r t) * spfState nm mass omega q r t)
        = (starRingEnd ℂ) (spfState nm mass omega p r t) * (((w r * v t : ℝ) : ℂ) * spfState nm mass omega q r t) := by
      intro r t; simp only [Complex.star_def]; ring
    simp only [e, plane_inner_factor]
    exact ((hw.const_mul _).ofReal).mul_const _
  refine ⟨⟨⟨f, hf, sf, fun p hp i hi => ?_⟩, ⟨x', hx', by rw [sy, sf], fun p hp i hi => ?_⟩⟩,
    ⟨s, hs, ?_⟩, ⟨d, hd, fun k hk => ?_⟩⟩
  · obtain ⟨i, j, rfl, hi, hj⟩ := inRange_two.1 hi
    exact vf p i j hp hi hj
  · rw [vy _ (by rw [sf]; exact ⟨hp, hi⟩)]
    obtain ⟨i, j, rfl, hi, hj⟩ := inRange_two.1 hi
    rw [vf p i j hp hi hj]
    rfl
  · have := elements_plane (l := l) (w := fun _ => 1) (φ := fun p z => spfState nm mass omega p z.1 z.2)
      (φt := fun p z => star (spfState nm mass omega p z.1 z.2)) (A := fun p q => s.get [p, q])
      (fun p hp q hq => by
        simp only [one_mul]
        exact vs p hp q hq)
      (fun p q r => by
        have := cont (fun _ => 1) p q r 1 continuous_const
        simpa using this)
      (fun p q => by
        have := int (fun _ => 1) (fun _ => 1) p q (by simpa using radial_integrable hm ho 1 (nm p).1 (nm p).2 (nm q).1 (nm q).2)
        simpa using this)
    simpa only [one_mul] using this
  · rw [hC.dim_eq] at hk
    obtain ⟨dx, dy⟩ : (∀ p q, dipoleEntry nm omega mass 0 p q = planeInner (spfState nm mass omega p)
          (fun r t => ((r * Real.cos t : ℝ) : ℂ) * spfState nm mass omega q r t)) ∧
        ∀ p q, dipoleEntry nm omega mass 1 p q = planeInner (spfState nm mass omega p)
          (fun r t => ((r * Real.sin t : ℝ) : ℂ) * spfState nm mass omega q r t) :=
      ⟨fun p q => (dipole_elements nm mass omega p q).1, fun p q => (dipole_elements nm mass omega p q).2⟩
    have ii : ∀ p q, IntegrableOn (fun r => r * r * spfRadial (nm p).1 (nm p).2 mass omega r
            * spfRadial (nm q).1 (nm q).2 mass omega r) (Set.Ioi 0) := fun p q => by
      have := radial_integrable hm ho 2 (nm p).1 (nm p).2 (nm q).1 (nm q).2
      simpa only [pow_two] using this
    refine elements_plane (fun p hp q hq => ?_) (fun p q r => ?_) (fun p q => ?_)
    · rw [vd k hk p hp q hq]
      obtain rfl | rfl : k = 0 ∨ k = 1 := by omega
      · rw [dx]
        unfold planeInner planeWeight
        congr 1
        funext r t
        simp only [if_true, Complex.star_def]
        ring
      · rw [dy]
        unfold planeInner planeWeight
        congr 1
        funext r t
        simp only [one_ne_zero, if_false, Complex.star_def]
        ring
    · obtain rfl | rfl : k = 0 ∨ k = 1 := by omega
      · exact cont Real.cos p q r r Real.continuous_cos
      · exact cont Real.sin p q r r Real.continuous_sin
    · obtain rfl | rfl : k = 0 ∨ k = 1 := by omega
      · exact int (fun r => r) Real.cos p q (ii p q)
      · exact int (fun r => r) Real.sin p q (ii p q)

/-- Keeping one combination `0.6 φ₀ + 0.8 φ₁` of two oscillator functions: the new basis set describes it. -/
example : ∃ b b', ∃ φ : ℕ → ℝ → ℂ, odho 2 1 3 1 1 1 0 = .ok b ∧
    (changeBasis (ofFn .float64 [2, 1] fun i => if i.getD 0 0 = 0 then 3 / 5 else 4 / 5) none).run b = (.ok (), b') ∧
    ∃ φ' φt', (∀ x, φ' 0 x = 3 / 5 * φ 0 x + 4 / 5 * φ 1 x) ∧ (∀ x, φt' 0 x = star (φ' 0 x)) ∧
      OfFunctions b' 1 [3] (fun i => -1 + i.getD 0 0 * (2 * 1 / (((3 : ℕ) : ℝ) - 1))) φ' φt'
        (fun F => ∫ x : ℝ, F x) (fun _ x => (x : ℂ)) := by
  obtain ⟨b, φ, hb, hf⟩ := C105_odho 2 1 (num := 3) (by norm_num) one_pos 1 1 0 0 false false
  obtain ⟨b', g1, hC⟩ := C91_odho 2 1 (num := 3) (by norm_num) 1 1 1 0 0 false false
  rw [hb] at g1; cases g1
  set C : NDArray ℂ := ofFn .float64 [2, 1] fun i => if i.getD 0 0 = 0 then 3 / 5 else 4 / 5 with hCe
  obtain ⟨b', hr, -⟩ := (C91_usable hC).1 1 C rfl
  obtain ⟨n, hn, h⟩ := C105_change_basis hC.wf hr hf
  obtain rfl : n = 1 := by
    have : C.shape = [2, 1] := rfl
    rw [this] at hn
    simpa using hn.symm
  have v0 : C.get [0, 0] = 3 / 5 := by
    rw [hCe, ofFn_get_of (by exact ⟨by norm_num, by norm_num, trivial⟩)]; simp
  have v1 : C.get [1, 0] = 4 / 5 := by
    rw [hCe, ofFn_get_of (by exact ⟨by norm_num, by norm_num, trivial⟩)]; simp
  have e1 : ∀ x, ketCombination 2 C φ 0 x = 3 / 5 * φ 0 x + 4 / 5 * φ 1 x := fun x => by
    simp [ketCombination, sum_range_succ, v0, v1]
  have e2 : ∀ x, braCombination 2 ((none : Option (NDArray ℂ)).getD C.conj.T) (fun p x => star (φ p x)) 0 x
      = star (3 / 5 * φ 0 x + 4 / 5 * φ 1 x) := fun x => by
    have hC2 : C.shape = [2, 1] := rfl
    simp [braCombination, sum_range_succ, conjT_get2 C hC2, v0, v1, Complex.conj_ofNat]
  exact ⟨b, b', φ, hb, hr, _, _, e1, fun x => by rw [e1]; exact e2 x, h⟩

/-- **C105** `TwoDimensionalHarmonicOscillator`: functions on the plane in polar coordinates; the dipole moment is
`(r cos θ, r sin θ)`. -/
theorem C105_two_dim (l num : ℕ) (radiusLength : ℝ) {omega mass : ℝ} (ho : 0 < omega) (hm : 0 < mass) (np : Module) :
    (∃ b, tdho (getCoulombElementsRaw l) l num radiusLength omega mass np = .ok b ∧
      OfFunctions b l [num, num] (fun i => (i.getD 1 0 * (radiusLength / ((num : ℝ) - 1)),
          i.getD 0 0 * (2 * Real.pi / ((num : ℝ) - 1))))
        (fun p z => spfState getIndicesNm mass omega p z.1 z.2)
        (fun p z => star (spfState getIndicesNm mass omega p z.1 z.2))
        (fun F => planeIntegral fun r t => F (r, t)) planeWeight) ∧
    ∀ barrier axis, ∃ b, doubleWell (getCoulombElementsRaw l) l num radiusLength omega mass barrier axis np = .ok b ∧
      OfFunctions b l [num, num] (fun i => (i.getD 1 0 * (radiusLength / ((num : ℝ) - 1)),
          i.getD 0 0 * (2 * Real.pi / ((num : ℝ) - 1))))
        (fun p z => spfState getIndicesNm mass omega p z.1 z.2)
        (fun p z => star (spfState getIndicesNm mass omega p z.1 z.2))
        (fun F => planeIntegral fun r t => F (r, t)) planeWeight := by
  obtain ⟨u, hu, -⟩ := C45_table l
  have key : ∀ b, Consistent b l 2 np false false → TdhoFields b u getIndicesNm l num radiusLength omega mass np →
      OfFunctions b l [num, num] (fun i => (i.getD 1 0 * (radiusLength / ((num : ℝ) - 1)),
          i.getD 0 0 * (2 * Real.pi / ((num : ℝ) - 1))))
        (fun p z => spfState getIndicesNm mass omega p z.1 z.2)
        (fun p z => star (spfState getIndicesNm mass omega p z.1 z.2))
        (fun F => planeIntegral fun r t => F (r, t)) planeWeight := by
    intro b hC F
    refine plane_functions hC ho hm F.spf_eq rfl (fun p i j hp hi hj => ?_) F.s_eq (fun p hp q hq => ?_) F.dipole_eq
      fun k hk p hp q hq => ofFn_get_of (show InRange [2, l, l] [k, p, q] from ⟨hk, hp, hq, trivial⟩)
    · rw [setupSpf, ofFn_get_of (show InRange [l, num, num] [p, i, j] from ⟨hp, hi, hj, trivial⟩)]
      simp [linspace]
    · rw [C72_orthonormal hm ho, eye_get l p q hp]
  refine ⟨?_, fun barrier axis => ?_⟩
  · obtain ⟨b, h1, hC⟩ := C91_tdho l num radiusLength omega mass np
    rw [hu] at h1 ⊢
    obtain ⟨b', g1, F, -⟩ := tdho_ok u l num radiusLength omega mass np
    rw [h1] at g1; cases g1
    exact ⟨b, h1, key b hC F⟩
  · obtain ⟨b, h1, hC⟩ := C91_double_well l num radiusLength omega mass barrier axis np
    rw [hu] at h1 ⊢
    obtain ⟨b', g1, F, -⟩ := doubleWell_ok u l num radiusLength omega mass barrier axis np
    rw [h1] at g1; cases g1
    exact ⟨b, h1, key b hC F⟩

/-- **C105** `TwoDimHarmonicOscB`: the same with the functions of the reduced frequency. -/
theorem C105_magnetic {l num : ℕ} {radiusLength omega0 mass omegaC : ℝ} {np : Module} {b : BasisSet ℂ}
    {df : List Row} (h : oscB l num radiusLength omega0 mass omegaC np = .ok (b, df)) (hm : 0 < mass)
    (ho : omega0 ≠ 0 ∨ omegaC ≠ 0) :
    ∃ φ, OfFunctions b l [num, num] (fun i => (i.getD 1 0 * (radiusLength / ((num : ℝ) - 1)),
          i.getD 0 0 * (2 * Real.pi / ((num : ℝ) - 1))))
        φ (fun p z => star (φ p z)) (fun F => planeIntegral fun r t => F (r, t)) planeWeight := by
  have hpos : 0 < omega0 ^ 2 + omegaC ^ 2 / 4 := by rcases ho with ho | ho <;> positivity
  have hw : 0 < omegaB omega0 omegaC := Real.sqrt_pos.2 hpos
  have hC := C91_magnetic h
  obtain ⟨hd, -⟩ := C51_one_body h
  obtain ⟨b', hh, u, h1, -, -, -, -, -, -, h4, -, h6, h7⟩ := oscB_ok hd num radiusLength mass np
  rw [h1] at h
  cases h
  have hnn : ∀ p < l, 0 ≤ (indicesNmB df p).1 := fun p hp => (kept_row hd hp).2.2.2
  have hinj : ∀ p q, p < l → q < l → indicesNmB df p = indicesNmB df q → p = q := by
    intro p q hp hq e
    have := (List.nodup_map_iff_inj_on List.nodup_range).1 (C51_lowest hd).2.1
    exact this p (List.mem_range.2 hp) q (List.mem_range.2 hq) e
  refine ⟨_, plane_functions (nm := indicesNmB df) hC hw hm h6 rfl (fun p i j hp hi hj => ?_) h4
    (fun p hp q hq => ?_) h7 fun k hk p hp q hq => ?_⟩
  · rw [toComplex_get, setupSpf, ofFn_get_of (show InRange [l, num, num] [p, i, j] from ⟨hp, hi, hj, trivial⟩)]
    simp [linspace]
  · rw [orthonormal hm hw (hnn p hp) (hnn q hq), toComplex_get, eye_get l p q hp]
    by_cases e : p = q
    · rw [if_pos e, if_pos (by rw [e])]
    · rw [if_neg e, if_neg fun e' => e (hinj p q hp hq e')]
  · rw [toComplex_get]
    exact ofFn_get_of (show InRange [2, l, l] [k, p, q] from ⟨hk, hp, hq, trivial⟩)

/-- **C105** `ODSincDVR`: functions on the grid, integrals are sums with the spacing as weight. -/
theorem C105_sinc {l : ℕ} (h2 : 2 ≤ l) {L : ℝ} (hL : 0 < L) (a alpha beta : ℝ) (V : ℝ → ℝ) {repr : URepr}
    (hr : repr ≠ .unknown) (hm : Bool) (np : Module) (sp an : Bool) :
    ∃ b φ, odSincDvr l L a alpha beta V repr hm np sp an = .ok b ∧
      let x : ℕ → ℝ := fun i => -L + i * (2 * L / ((l : ℝ) - 1))
      OfFunctions b l [l] (fun i => i.getD 0 0) φ (fun p i => star (φ p i))
        (fun F => ∑ i ∈ range l, ((2 * L / ((l : ℝ) - 1) : ℝ) : ℂ) * F i)
        (fun _ i => ((x i + beta * x i ^ 2 : ℝ) : ℂ)) := by
  have hok := odSincDvr_ok h2 L a alpha beta V hr hm np sp an
  have hdx : 0 < spacing l L := by
    have : (2 : ℝ) ≤ l := by exact_mod_cast h2
    exact div_pos (by linarith) (by linarith)
  have hl : ∀ i, TwoDim.linspace (-L) L l i = -L + i * (2 * L / ((l : ℝ) - 1)) := fun i => by
    unfold TwoDim.linspace
    ring
  have one : ∀ p < l, ∀ q < l, ∀ c : ℕ → ℂ, ∑ i ∈ range l, ((2 * L / ((l : ℝ) - 1) : ℝ) : ℂ)
      * (c i * (star ((sincSpf l L).get [p, i]) * (sincSpf l L).get [q, i])) = if p = q then c p else 0 := by
    intro p hp q hq c
    rw [sum_eq_single p]
    · rw [sincSpf_get h2 hL hp hp, sincSpf_get h2 hL hq hp, if_pos rfl]
      by_cases e : p = q
      · rw [if_pos e.symm, if_pos e, Complex.star_def, Complex.conj_ofReal]
        have : (2 * L / ((l : ℝ) - 1)) * (1 / √(spacing l L) * (1 / √(spacing l L))) = 1 := by
          have : 2 * L / ((l : ℝ) - 1) = √(spacing l L) * √(spacing l L) := (Real.mul_self_sqrt hdx.le).symm
          rw [this]
          have := (Real.sqrt_pos.2 hdx).ne'
          field_simp
        calc _ = ((2 * L / ((l : ℝ) - 1) * (1 / √(spacing l L) * (1 / √(spacing l L))) : ℝ) : ℂ) * c p := by
              push_cast; ring
          _ = c p := by rw [this, Complex.ofReal_one, one_mul]
      · rw [if_neg (fun h => e h.symm), if_neg e]; ring
    · intro i hi hne
      rw [sincSpf_get h2 hL hp (mem_range.1 hi), if_neg (fun h => hne h.symm)]
      simp
    · intro h; exact absurd (mem_range.2 hp) h
  have lin : ∀ w : ℕ → ℂ, ∀ A : ℕ → ℕ → ℂ, (∀ p < l, ∀ q < l, A p q = if p = q then w p else 0) →
      Elements l (fun F => ∑ i ∈ range l, ((2 * L / ((l : ℝ) - 1) : ℝ) : ℂ) * (w i * F i))
        (fun p i => (sincSpf l L).get [p, i]) (fun p i => star ((sincSpf l L).get [p, i])) A := by
    intro w A hA
    refine ⟨fun p hp q hq => by rw [hA p hp q hq]; exact (one p hp q hq w).symm, fun c => ?_⟩
    dsimp only
    simp only [mul_sum]
    rw [sum_comm]
    refine sum_congr rfl fun p _ => ?_
    rw [sum_comm]
    exact sum_congr rfl fun q _ => sum_congr rfl fun i _ => by ring
  refine ⟨_, fun p i => (sincSpf l L).get [p, i], hok, ⟨⟨_, rfl, rfl, fun p hp i hi => ?_⟩,
    ⟨_, rfl, rfl, fun p hp i hi => ?_⟩⟩, ⟨_, rfl, ?_⟩, ⟨_, rfl, fun k hk => ?_⟩⟩
  · obtain ⟨i, rfl, -⟩ := inRange_one.1 hi
    rfl
  · rw [conj_get]
    obtain ⟨i, rfl, -⟩ := inRange_one.1 hi
    rfl
  · have := lin (fun _ => 1) (fun p q => (eye l).toComplex.get [p, q]) fun p hp q hq => by
      rw [toComplex_get, eye_get l p q hp]
    simpa only [one_mul] using this
  · obtain rfl : k = 0 := by
      have : k < 1 := hk
      omega
    refine lin _ _ fun p hp q hq => ?_
    unfold sincDip
    rw [ofFn_get_of (by exact ⟨by omega, hp, hq, trivial⟩)]
    simp only [List.getD_cons_zero, List.getD_cons_succ, hl]

end constructors

end QS.Props
