import Verif.Lemmas.Continuity
import Verif.Props.SumRule
import Verif.Props.DensityIntegral

/-!
# The continuity equation of electrons in one-dimensional dots (C147)
-/

namespace QS.Props

open OneDim NDArray Spec BasisSet Finset World

/-- The change of the number of electrons at a point of the grid. -/
theorem hop_entry {l i : ℕ} {V : ℝ → ℝ} {x : ℕ → ℝ} {dx : ℝ} {ζ : ℕ → ℂ} (a b : Fin (2 * l)) :
    Complex.I * (((if b.1 / 2 = i then 1 else 0) - (if a.1 / 2 = i then 1 else 0)) *
      (if a.1 % 2 = b.1 % 2 then (fdEntry V x dx (a.1 / 2) (b.1 / 2) : ℂ) + (if a.1 / 2 = b.1 / 2 then ζ (a.1 / 2) else 0) else 0)) =
    Complex.I / (2 * dx ^ 2) * (hop l i (i + 1) a b - hop l (i + 1) i a b) +
      (if i = 0 then 0 else Complex.I / (2 * dx ^ 2) * (hop l i (i - 1) a b - hop l (i - 1) i a b)) := by
  unfold hop
  by_cases e : a.1 % 2 = b.1 % 2
  · simp only [e, true_and, if_true]
    generalize a.1 / 2 = A
    generalize b.1 / 2 = B
    unfold fdEntry
    by_cases hA : A = i
    · by_cases hB : B = i
      · subst hA hB
        simp
      · by_cases h1 : B = i + 1
        · subst hA h1
          have : ¬(A = A + 1) := by omega
          have h2 : ¬(A + 1 = A - 1) := by omega
          simp [h2]
          ring
        · by_cases h2 : B + 1 = i
          · subst hA
            have h3 : A ≠ 0 := by omega
            have h4 : B = A - 1 := by omega
            have h5 : ¬(A = B) := by omega
            have h6 : ¬(A + 1 = B) := by omega
            simp [h2, h3, h5, h6, hB, h1, ← h4]
            ring
          · have h3 : ¬(i = B) := fun h => hB h.symm
            have h4 : ¬(i + 1 = B) := fun h => h1 h.symm
            have h5 : i ≠ 0 → ¬(B = i - 1) := by omega
            by_cases h0 : i = 0
            · simp [hA, hB, h1, h2, h3, h4, h0]
              simp_all
            · simp [hA, hB, h1, h2, h3, h4, h0, h5 h0]
    · by_cases hB : B = i
      · by_cases h1 : A = i + 1
        · subst hB h1
          have h2 : ¬(B + 1 = B - 1) := by omega
          simp [h2]
          ring
        · by_cases h2 : A + 1 = i
          · subst hB
            have h3 : B ≠ 0 := by omega
            have h4 : A = B - 1 := by omega
            have h6 : ¬(B + 1 = A) := by omega
            simp [h2, h3, h6, hA, h1, ← h4]
            ring
          · have h3 : ¬(i = A) := fun h => hA h.symm
            have h4 : ¬(i + 1 = A) := fun h => h1 h.symm
            have h5 : i ≠ 0 → ¬(A = i - 1) := by omega
            by_cases h0 : i = 0
            · simp [hA, hB, h1, h2, h3, h4, h0]
              simp_all
            · simp [hA, hB, h1, h2, h3, h4, h0, h5 h0]
      · simp [hA, hB]
  · simp [e]

/-- The current on the grid. -/
noncomputable def flow (l : ℕ) (dx : ℝ) {N : ℕ} (Χ : Wave ℂ N (2 * l)) : ℕ → ℂ
  | 0 => 0
  | i + 1 => 1 / (2 * Complex.I * dx ^ 2) * (meanOne (hop l i (i + 1)) Χ - meanOne (hop l (i + 1) i) Χ)

theorem flow_succ {l : ℕ} {dx : ℝ} {N : ℕ} (Χ : Wave ℂ N (2 * l)) (i : ℕ) : flow l dx Χ (i + 1) =
    1 / (2 * Complex.I * dx ^ 2) * (meanOne (hop l i (i + 1)) Χ - meanOne (hop l (i + 1) i) Χ) := rfl

theorem flow_last {l : ℕ} {dx : ℝ} {N : ℕ} (hl : 0 < l) (Χ : Wave ℂ N (2 * l)) : flow l dx Χ l = 0 := by
  obtain ⟨i, rfl⟩ : ∃ i, l = i + 1 := ⟨l - 1, by omega⟩
  have z : ∀ A : Fin (2 * (i + 1)) → Fin (2 * (i + 1)) → ℂ, (∀ a b, A a b = 0) → meanOne A Χ = 0 := fun A hA => by
    obtain ⟨γ, hγ⟩ := meanOne_expand Χ
    rw [hγ]
    exact sum_eq_zero fun a _ => sum_eq_zero fun b _ => by rw [hA, zero_mul]
  rw [flow_succ, z (hop _ _ _) fun a b => if_neg (by omega), z (hop _ _ _) fun a b => if_neg (by omega), sub_zero, mul_zero]

theorem flow_im {l : ℕ} {dx : ℝ} {N : ℕ} (Χ : Wave ℂ N (2 * l)) (k : ℕ) : (flow l dx Χ k).im = 0 := by
  cases k with
  | zero => rfl
  | succ i =>
    rw [flow_succ, ← hop_star i (i + 1)]
    have : meanOne (hop l i (i + 1)) Χ - star (meanOne (hop l i (i + 1)) Χ) = 2 * Complex.I * (meanOne (hop l i (i + 1)) Χ).im := by
      apply Complex.ext <;> simp
      ring
    rw [this, show 1 / (2 * Complex.I * (dx : ℂ) ^ 2) * (2 * Complex.I * ((meanOne (hop l i (i + 1)) Χ).im : ℂ)) =
      (((meanOne (hop l i (i + 1)) Χ).im / dx ^ 2 : ℝ) : ℂ) from ?_, Complex.ofReal_im]
    push_cast
    have hI := Complex.I_ne_zero
    by_cases h : (dx : ℂ) = 0
    · simp [h]
    · field_simp

theorem meanOne_add' {N L : ℕ} (A B : Fin L → Fin L → ℂ) (Ψ : Wave ℂ N L) :
    meanOne (fun p q => A p q + B p q) Ψ = meanOne A Ψ + meanOne B Ψ := by
  obtain ⟨γ, hγ⟩ := meanOne_expand Ψ
  rw [hγ, hγ, hγ, ← sum_add_distrib]
  refine sum_congr rfl fun a _ => ?_
  rw [← sum_add_distrib]
  exact sum_congr rfl fun b _ => by ring

/-- The number of electrons at a point changes by the difference of the currents. -/
theorem grid_flow {N l : ℕ} {V : ℝ → ℝ} {x : ℕ → ℝ} {dx : ℝ} {ζ : ℝ → ℕ → ℂ} {hg : ℝ → Fin (2 * l) → Fin (2 * l) → ℂ}
    {ug : ℝ → Fin (2 * l) → Fin (2 * l) → Fin (2 * l) → Fin (2 * l) → ℂ} (hh : HermitianElements hg ug)
    (eh : ∀ t a b, hg t a b = if a.1 % 2 = b.1 % 2 then (fdEntry V x dx (a.1 / 2) (b.1 / 2) : ℂ) +
      (if a.1 / 2 = b.1 / 2 then ζ t (a.1 / 2) else 0) else 0)
    (hu : ∀ t p q r s, ¬(p = r ∧ q = s) → ug t p q r s = 0) {Χ : ℝ → Wave ℂ N (2 * l)} (ev : Evolves hg ug Χ) (t : ℝ) (i : ℕ) :
    HasDerivAt (fun t => meanOne (hop l i i) (Χ t)) (flow l dx (Χ t) i - flow l dx (Χ t) (i + 1)) t := by
  have key := ev.diagonal hh (hu t) fun a => if a.1 / 2 = i then 1 else 0
  have e1 : (fun p q : Fin (2 * l) => if p = q then (if p.1 / 2 = i then (1 : ℂ) else 0) else 0) = hop l i i := by
    funext a b
    unfold hop
    by_cases e : a = b
    · subst e
      simp
    · rw [if_neg e, if_neg fun h => e (Fin.ext (by omega))]
  rw [e1] at key
  refine key.congr_deriv ?_
  have e2 : (fun p q : Fin (2 * l) => Complex.I * (((if q.1 / 2 = i then 1 else 0) - (if p.1 / 2 = i then 1 else 0)) * hg t p q)) =
      fun a b => Complex.I / (2 * dx ^ 2) * (hop l i (i + 1) a b - hop l (i + 1) i a b) +
        (if i = 0 then 0 else Complex.I / (2 * dx ^ 2) * (hop l i (i - 1) a b - hop l (i - 1) i a b)) := by
    funext a b
    rw [eh, hop_entry]
  have hI : 1 / (2 * Complex.I * (dx : ℂ) ^ 2) = -(Complex.I / (2 * dx ^ 2)) := by
    rw [show 1 / (2 * Complex.I * (dx : ℂ) ^ 2) = Complex.I⁻¹ / (2 * dx ^ 2) by field_simp, Complex.inv_I, neg_div]
  rw [e2]
  cases i with
  | zero =>
    simp only [if_true, add_zero]
    rw [meanOne_const _ (fun a b => hop l 0 (0 + 1) a b - hop l (0 + 1) 0 a b), meanOne_sub]
    unfold flow
    rw [hI]
    ring
  | succ i =>
    simp only [Nat.succ_ne_zero, if_false, Nat.add_sub_cancel]
    rw [meanOne_add' (fun a b => Complex.I / (2 * (dx : ℂ) ^ 2) * (hop l (i + 1) (i + 1 + 1) a b - hop l (i + 1 + 1) (i + 1) a b)),
      meanOne_const _ (fun a b => hop l (i + 1) (i + 1 + 1) a b - hop l (i + 1 + 1) (i + 1) a b), meanOne_sub,
      meanOne_const _ (fun a b => hop l (i + 1) i a b - hop l i (i + 1) a b), meanOne_sub]
    unfold flow
    rw [hI]
    ring

/-- Products of the values of the functions of `ODQD`. -/
theorem grid_values {N num : ℕ} {dx : ℝ} (hdx : 0 < dx) {C f : NDArray ℂ}
    (fk : ∀ p < num - 2, ∀ k < num - 2, f.get [p, k + 1] = C.get [k, p] / (Real.sqrt dx : ℂ))
    (iso : (Matrix.of (spinMat (num - 2) (num - 2) C)).conjTranspose * Matrix.of (spinMat (num - 2) (num - 2) C) = 1)
    (Ψ : Wave ℂ N (2 * (num - 2))) {i j : ℕ} (hi : i < num - 2) (hj : j < num - 2) :
    ∑ p ∈ range (num - 2), ∑ q ∈ range (num - 2), (densityMatrix (num - 2) Ψ).get [q, p] *
      (star (f.get [p, i + 1]) * f.get [q, j + 1]) = 1 / dx *
        meanOne (hop (num - 2) i j) (prodOp (fun _ => Matrix.of (spinMat (num - 2) (num - 2) C)) Ψ) := by
  rw [← hop_values Ψ iso hi hj, mul_sum]
  refine sum_congr rfl fun p hp => ?_
  rw [mul_sum]
  refine sum_congr rfl fun q hq => ?_
  rw [fk p (mem_range.1 hp) i hi, fk q (mem_range.1 hq) j hj]
  have hs2 : (Real.sqrt dx : ℂ) * Real.sqrt dx = (dx : ℂ) := by rw [← Complex.ofReal_mul, Real.mul_self_sqrt hdx.le]
  have hs : (Real.sqrt dx : ℂ) ≠ 0 := by exact_mod_cast (Real.sqrt_pos.2 hdx).ne'
  rw [star_div₀, show star (Real.sqrt dx : ℂ) = (Real.sqrt dx : ℂ) from Complex.conj_ofReal _, ← hs2]
  field_simp

theorem gridCurrent_eq {N num : ℕ} {dx : ℝ} (hdx : 0 < dx) {C f : NDArray ℂ}
    (f0 : ∀ p < num - 2, f.get [p, 0] = 0) (f1 : ∀ p < num - 2, f.get [p, num - 1] = 0)
    (fk : ∀ p < num - 2, ∀ k < num - 2, f.get [p, k + 1] = C.get [k, p] / (Real.sqrt dx : ℂ))
    (iso : (Matrix.of (spinMat (num - 2) (num - 2) C)).conjTranspose * Matrix.of (spinMat (num - 2) (num - 2) C) = 1)
    (Ψ : Wave ℂ N (2 * (num - 2))) {k : ℕ} (hk : k < num - 1) :
    gridCurrent (num - 2) dx f (densityMatrix (num - 2) Ψ) k =
      flow (num - 2) dx (prodOp (fun _ => Matrix.of (spinMat (num - 2) (num - 2) C)) Ψ) k := by
  unfold gridCurrent
  cases k with
  | zero =>
    rw [sum_eq_zero fun p hp => sum_eq_zero fun q hq => by
      rw [f0 p (mem_range.1 hp), f0 q (mem_range.1 hq), star_zero, zero_mul, mul_zero, sub_zero, mul_zero], mul_zero]
    rfl
  | succ i =>
    by_cases hi : i + 1 < num - 2
    · have e : ∑ p ∈ range (num - 2), ∑ q ∈ range (num - 2), (densityMatrix (num - 2) Ψ).get [q, p] *
          (star (f.get [p, i + 1]) * f.get [q, i + 1 + 1] - star (f.get [p, i + 1 + 1]) * f.get [q, i + 1]) =
          (∑ p ∈ range (num - 2), ∑ q ∈ range (num - 2), (densityMatrix (num - 2) Ψ).get [q, p] *
            (star (f.get [p, i + 1]) * f.get [q, i + 1 + 1])) - ∑ p ∈ range (num - 2), ∑ q ∈ range (num - 2),
              (densityMatrix (num - 2) Ψ).get [q, p] * (star (f.get [p, i + 1 + 1]) * f.get [q, i + 1]) := by
        rw [← sum_sub_distrib]
        refine sum_congr rfl fun p _ => ?_
        rw [← sum_sub_distrib]
        exact sum_congr rfl fun q _ => by ring
      rw [e, grid_values hdx fk iso Ψ (by omega) hi, grid_values hdx fk iso Ψ hi (by omega)]
      unfold flow
      have : (dx : ℂ) ≠ 0 := by exact_mod_cast hdx.ne'
      have hI := Complex.I_ne_zero
      field_simp
    · rw [show i + 1 = num - 2 by omega, flow_last (by omega), show num - 2 + 1 = num - 1 by omega, sum_eq_zero fun p hp => sum_eq_zero fun q hq => by
        rw [f1 p (mem_range.1 hp), f1 q (mem_range.1 hq), star_zero, zero_mul, mul_zero, sub_zero, mul_zero], mul_zero]

theorem spinOne_congr' {l : ℕ} {A B : NDArray ℂ} (h : ∀ p < l, ∀ q < l, A.get [p, q] = B.get [p, q]) : spinOne l A = spinOne l B := by
  funext p q
  unfold spinOne
  rw [h _ (by omega) _ (by omega)]

theorem spinTwo_congr' {l : ℕ} {A B : NDArray ℂ}
    (h : ∀ p < l, ∀ q < l, ∀ r < l, ∀ s < l, A.get [p, q, r, s] = B.get [p, q, r, s]) : spinTwo l A = spinTwo l B := by
  funext p q r s
  unfold spinTwo
  rw [h _ (by omega) _ (by omega) _ (by omega) _ (by omega)]

/-- **C147** Electrons in `ODQD` with all functions of the grid: the density that `compute_particle_density` gives flows.  Its change at
every inner point is the difference of the currents on both sides (for every potential, interaction, strength of the interaction
and field), no electrons leave at the ends, and the velocity of the dipole moment is the sum of the currents. -/
theorem C147_flows {eigh : NDArray ℂ → Except PyErr (NDArray ℂ × NDArray ℂ)} (he : IsEigh eigh) {num : ℕ} {L : ℝ} (hL : 0 < L)
    (h3 : 3 ≤ num) {a alpha beta : ℝ} {V : ℝ → ℝ} {hm : Bool} {np : Module} {sp an : Bool} {b : BasisSet ℂ} {h u d : NDArray ℂ}
    (run : odqd eigh (num - 2) L num a alpha beta V hm np sp an = .ok b) (hh : b.h = some h) (hu : b.u = some u)
    (hd : b.dipole = some d) {H U : ℝ → NDArray ℂ} {F c : ℝ → ℂ} (hF : ∀ t, star (F t) = F t) (hc : ∀ t, star (c t) = c t)
    (hH : ∀ t, ∀ p < num - 2, ∀ q < num - 2, (H t).get [p, q] = h.get [p, q] + F t * d.get [0, p, q])
    (hU : ∀ t, ∀ p < num - 2, ∀ q < num - 2, ∀ r < num - 2, ∀ s < num - 2, (U t).get [p, q, r, s] = c t * u.get [p, q, r, s])
    (N : ℕ) : ∃ f, b.spf = some f ∧ f.shape = [num - 2, num] ∧ Flows N (num - 2) num L beta b f d
      (fun t => spinOne (num - 2) (H t)) fun t => spinTwo (num - 2) (U t) := by
  obtain ⟨b', h', u', C, run', h1, h2, hC, uni, one, two, d', f, h4, dip, hnp, hl, hdim, hspf, hbra, fs, fd, hf⟩ :=
    odqd_grid he hL h3 le_rfl a alpha beta V hm np sp an
  obtain rfl := Except.ok.inj (run.symm.trans run')
  obtain rfl := Option.some.inj (hh.symm.trans h1)
  obtain rfl := Option.some.inj (hu.symm.trans h2)
  obtain rfl := Option.some.inj (hd.symm.trans h4)
  have hlin : ∀ i : ℕ, TwoDim.linspace (-L) L num i = -L + i * (2 * L / ((num : ℝ) - 1)) := fun i => by
    unfold TwoDim.linspace
    ring
  have hdx0 : 0 < 2 * L / ((num : ℝ) - 1) := dx_pos hL h3
  set x := TwoDim.linspace (-L) L num with hx
  set dx := 2 * L / ((num : ℝ) - 1) with hdx
  have hdxc : (dx : ℂ) ≠ 0 := by exact_mod_cast hdx0.ne'
  set δ : ℕ → ℝ := fun p => x (p + 1) + beta * x (p + 1) ^ 2 with hδ
  have iso := spin_isometry uni
  have f0 := fun p hp => (hf p hp).1
  have f1 := fun p hp => (hf p hp).2.1
  have fk := fun p hp => (hf p hp).2.2
  have cur := fun (Ψ : Wave ℂ N (2 * (num - 2))) (k : ℕ) (hk : k < num - 1) => gridCurrent_eq hdx0 f0 f1 fk iso Ψ hk
  -- the elements on the grid
  set Hg : ℝ → NDArray ℂ := fun t => ofFn .complex128 [num - 2, num - 2] fun i =>
    (gridMatrix V L num).get [i.getD 0 0, i.getD 1 0] + if i.getD 0 0 = i.getD 1 0 then F t * δ (i.getD 0 0) else 0 with hHg
  set Ug : ℝ → NDArray ℂ := fun t => ofFn .complex128 [num - 2, num - 2, num - 2, num - 2] fun i =>
    c t * (gridU L alpha a num).get [i.getD 0 0, i.getD 1 0, i.getD 2 0, i.getD 3 0] with hUg
  have gHg : ∀ t, ∀ p < num - 2, ∀ q < num - 2, (Hg t).get [p, q] = (gridMatrix V L num).get [p, q] +
      if p = q then F t * δ p else 0 := fun t p hp q hq => ofFn_get_of (by exact ⟨hp, hq, trivial⟩)
  have gUg : ∀ t, ∀ p < num - 2, ∀ q < num - 2, ∀ r < num - 2, ∀ s < num - 2, (Ug t).get [p, q, r, s] =
      c t * (gridU L alpha a num).get [p, q, r, s] := fun t p hp q hq r hr s hs =>
    ofFn_get_of (by exact ⟨hp, hq, hr, hs, trivial⟩)
  have cH : ∀ t, spinOne (num - 2) (H t) = fun p q => ((Matrix.of (spinMat (num - 2) (num - 2) C)).conjTranspose *
      Matrix.of (spinOne (num - 2) (Hg t)) * Matrix.of (spinMat (num - 2) (num - 2) C)) p q := fun t => by
    rw [spin_one_changed (H' := ofFn .complex128 [num - 2, num - 2] fun i => (H t).get [i.getD 0 0, i.getD 1 0]) hC
      ⟨rfl, fun p hp q hq => ?_⟩]
    · exact spinOne_congr' fun p hp q hq => by
        rw [ofFn_get_of (by exact ⟨hp, hq, trivial⟩)]
        rfl
    · rw [ofFn_get_of (by exact ⟨hp, hq, trivial⟩)]
      simp only [List.getD_cons_zero, List.getD_cons_succ]
      rw [hH t p hp q hq, one.2 p hp q hq, dip p hp q hq, mul_sum, ← sum_add_distrib]
      refine sum_congr rfl fun k hk => ?_
      symm
      rw [sum_congr rfl fun j hj => by rw [gHg t k (mem_range.1 hk) j (mem_range.1 hj), mul_add, add_mul], sum_add_distrib]
      congr 1
      rw [sum_eq_single k]
      · rw [if_pos rfl, conjT_get2 C hC]
        ring
      · exact fun j _ hj => by rw [if_neg fun e => hj e.symm]; ring
      · exact fun e => absurd hk e
  have cU : ∀ t, spinTwo (num - 2) (U t) = fun p q r s => ∑ a, ∑ b, ∑ c, ∑ d,
      (Matrix.of (spinMat (num - 2) (num - 2) C)).conjTranspose p a *
      (Matrix.of (spinMat (num - 2) (num - 2) C)).conjTranspose q b * spinTwo (num - 2) (Ug t) a b c d *
      Matrix.of (spinMat (num - 2) (num - 2) C) c r * Matrix.of (spinMat (num - 2) (num - 2) C) d s := fun t => by
    rw [spin_two_changed (U' := ofFn .complex128 [num - 2, num - 2, num - 2, num - 2] fun i =>
      (U t).get [i.getD 0 0, i.getD 1 0, i.getD 2 0, i.getD 3 0]) hC ⟨rfl, fun p hp q hq r hr s hs => ?_⟩]
    · exact spinTwo_congr' fun p hp q hq r hr s hs => by
        rw [ofFn_get_of (by exact ⟨hp, hq, hr, hs, trivial⟩)]
        rfl
    · rw [ofFn_get_of (by exact ⟨hp, hq, hr, hs, trivial⟩)]
      simp only [List.getD_cons_zero, List.getD_cons_succ]
      rw [hU t p hp q hq r hr s hs, two.2 p hp q hq r hr s hs]
      simp only [mul_sum]
      refine sum_congr rfl fun i hi => sum_congr rfl fun j hj => sum_congr rfl fun k hk => sum_congr rfl fun m hm => ?_
      rw [gUg t i (mem_range.1 hi) j (mem_range.1 hj) k (mem_range.1 hk) m (mem_range.1 hm)]
      ring
  have back : ∀ Ψ : ℝ → Wave ℂ N (2 * (num - 2)), Evolves (fun t => spinOne (num - 2) (H t)) (fun t => spinTwo (num - 2) (U t)) Ψ →
      Evolves (fun t => spinOne (num - 2) (Hg t)) (fun t => spinTwo (num - 2) (Ug t))
        fun t => prodOp (fun _ => Matrix.of (spinMat (num - 2) (num - 2) C)) (Ψ t) := fun Ψ ev => by
    refine Evolves.back iso ?_
    simp only [cH, cU] at ev
    exact ev
  have herm : HermitianElements (fun t => spinOne (num - 2) (Hg t)) (fun t => spinTwo (num - 2) (Ug t)) :=
    ⟨fun t p q => spinOne_herm (fun p hp q hq => by
      have gh : (gridMatrix V L num).get [p, q] = star ((gridMatrix V L num).get [q, p]) := gridMatrix_herm V L num p q
      rw [gHg t p hp q hq, gHg t q hq p hp, star_add, ← gh]
      by_cases e : p = q
      · subst e
        rw [if_pos rfl, star_mul', hF, Complex.star_def, Complex.conj_ofReal]
      · rw [if_neg e, if_neg fun h => e h.symm, star_zero]) p q,
    fun t p q r s => spinTwo_herm (fun p hp q hq r hr s hs => by
      rw [gUg t p hp q hq r hr s hs, gUg t r hr s hs p hp q hq, star_mul', hc, ← gridU_herm L alpha a num p hp q hq r hr s hs]) p q r s⟩
  have loc : ∀ t p q r s, ¬(p = r ∧ q = s) → spinTwo (num - 2) (Ug t) p q r s = 0 := fun t =>
    spinTwo_local fun p hp q hq r hr s hs hne => by
      rw [gUg t p hp q hq r hr s hs]
      unfold gridU
      rw [ofFn_get_of (by exact ⟨hp, hq, hr, hs, trivial⟩), if_neg (by exact hne), mul_zero]
  have hG : ∀ p < (num - 2), ∀ q < (num - 2), (gridMatrix V L num).get [p, q] = (fdEntry V x dx p q : ℂ) := fun p hp q hq => by
    unfold gridMatrix
    rw [ofFn_get_of (by exact ⟨hp, hq, trivial⟩), show (L - -L) / ((num : ℝ) - 1) = dx by rw [hdx]; ring]
    rfl
  have ent : ∀ t (a b : Fin (2 * (num - 2))), spinOne (num - 2) (Hg t) a b = if a.1 % 2 = b.1 % 2 then
      (fdEntry V x dx (a.1 / 2) (b.1 / 2) : ℂ) + (if a.1 / 2 = b.1 / 2 then F t * (δ (a.1 / 2) : ℂ) else 0)
      else 0 := fun t a b => by
    unfold spinOne
    split_ifs with e e'
    · rw [gHg t _ (by omega) _ (by omega), if_pos e', hG _ (by omega) _ (by omega)]
    · rw [gHg t _ (by omega) _ (by omega), if_neg e', hG _ (by omega) _ (by omega)]
    · rfl
  have move := fun (Ψ : ℝ → Wave ℂ N (2 * (num - 2))) ev t i => grid_flow (V := V) (x := x) (dx := dx) (ζ := fun t (i : ℕ) => F t * (δ i : ℂ)) herm ent loc (back Ψ ev) t i
  -- the density
  have den : ∀ (Ψ : Wave ℂ N (2 * (num - 2))) n, ((computeParticleDensity (densityMatrix (num - 2) Ψ) none none).run b).1 = .ok n →
      n.shape = [num] ∧ n.get [0] = 0 ∧ n.get [num - 1] = 0 ∧ ∀ i < num - 2, n.get [i + 1] = 1 / dx *
        meanOne (hop (num - 2) i i) (prodOp (fun _ => Matrix.of (spinMat (num - 2) (num - 2) C)) Ψ) := fun Ψ n hn => by
    obtain ⟨n', run, sn, gn⟩ := C27_density (b := b) (rho := densityMatrix (num - 2) Ψ) (x := f) (y := f.conj) (l := num - 2) (g := [num])
      (by rw [hnp]; rfl) hspf hbra fs fs rfl rfl (by rw [fd]; rfl)
    rw [run] at hn
    obtain rfl := Except.ok.inj hn
    refine ⟨sn, ?_, ?_, fun i hi => ?_⟩
    · rw [gn [0] (by exact ⟨by omega, trivial⟩)]
      exact sum_eq_zero fun p hp => sum_eq_zero fun q hq => by rw [f0 q (mem_range.1 hq), mul_zero]
    · rw [gn [num - 1] (by exact ⟨by omega, trivial⟩)]
      exact sum_eq_zero fun p hp => sum_eq_zero fun q hq => by rw [f1 q (mem_range.1 hq), mul_zero]
    · rw [gn [i + 1] (by exact ⟨by omega, trivial⟩), ← grid_values hdx0 fk iso Ψ hi hi]
      exact sum_congr rfl fun p _ => sum_congr rfl fun q _ => by rw [conj_get]; ring
  have cont : ∀ Ψ : ℝ → Wave ℂ N (2 * (num - 2)), Evolves (fun t => spinOne (num - 2) (H t)) (fun t => spinTwo (num - 2) (U t)) Ψ →
      ∀ n : ℝ → NDArray ℂ, (∀ t, ((computeParticleDensity (densityMatrix (num - 2) (Ψ t)) none none).run b).1 = .ok (n t)) →
        ∀ t k, 1 ≤ k → k < num - 1 → HasDerivAt (fun t => (n t).get [k]) (-(gridCurrent (num - 2) dx f (densityMatrix (num - 2) (Ψ t)) k -
          gridCurrent (num - 2) dx f (densityMatrix (num - 2) (Ψ t)) (k - 1)) / (dx : ℝ)) t := fun Ψ ev n hn t k hk1 hk2 => by
    obtain ⟨i, rfl⟩ : ∃ i, k = i + 1 := ⟨k - 1, by omega⟩
    rw [show (fun t => (n t).get [i + 1]) = fun t => 1 / (dx : ℂ) * meanOne (hop (num - 2) i i)
      (prodOp (fun _ => Matrix.of (spinMat (num - 2) (num - 2) C)) (Ψ t)) from funext fun t => (den (Ψ t) (n t) (hn t)).2.2.2 i (by omega),
      Nat.add_sub_cancel, cur (Ψ t) _ hk2, cur (Ψ t) i (by omega)]
    refine ((move Ψ ev t i).const_mul _).congr_deriv ?_
    ring
  refine ⟨f, hspf, fs, ⟨fun Ψ => ?_, fun Ψ k hk => ?_, fun Ψ => ⟨?_, ?_⟩, cont, fun Ψ ev n hn t i j hij hj => ?_, fun Ψ ev t => ?_,
    fun Ψ ev t v hv => ?_⟩⟩
  · obtain ⟨n, run, -, -⟩ := C27_density (b := b) (rho := densityMatrix (num - 2) Ψ) (x := f) (y := f.conj) (l := num - 2) (g := [num])
      (by rw [hnp]; rfl) hspf hbra fs fs rfl rfl (by rw [fd]; rfl)
    have hn : ((computeParticleDensity (densityMatrix (num - 2) Ψ) none none).run b).1 = .ok n := by rw [run]
    obtain ⟨h1, h2, h3, -⟩ := den Ψ n hn
    exact ⟨n, hn, h1, h2, h3⟩
  · rw [cur Ψ k hk]
    exact flow_im _ k
  · rw [cur Ψ 0 (by omega)]
    rfl
  · rw [cur Ψ (num - 2) (by omega)]
    exact flow_last (by omega) _
  · have s := (HasDerivAt.fun_sum fun k (hk : k ∈ Ico (i + 1) (j + 1)) => cont Ψ ev n hn t k (by have := mem_Ico.1 hk; omega)
      (by have := mem_Ico.1 hk; omega)).const_mul (dx : ℂ)
    refine s.congr_deriv ?_
    rw [mul_sum, sum_congr rfl (g := fun k => gridCurrent (num - 2) dx f (densityMatrix (num - 2) (Ψ t)) (k - 1) -
      gridCurrent (num - 2) dx f (densityMatrix (num - 2) (Ψ t)) k) fun k _ => by field_simp; ring]
    obtain ⟨m, rfl⟩ := Nat.exists_eq_add_of_le hij
    rw [sum_Ico_eq_sum_range, show i + m + 1 - (i + 1) = m by omega]
    clear s hij hj
    induction m with
    | zero => simp
    | succ m ih =>
      rw [sum_range_succ, ih, show i + 1 + m - 1 = i + m by omega, show i + 1 + m = i + (m + 1) by omega]
      ring
  · have e : (fun t => meanOne (spinDipole (num - 2) d 0) (Ψ t)) = fun t => ∑ i ∈ range (num - 2), (δ i : ℂ) *
        meanOne (hop (num - 2) i i) (prodOp (fun _ => Matrix.of (spinMat (num - 2) (num - 2) C)) (Ψ t)) := funext fun t => by
      rw [spin_dipole_changed (δ := δ) hC dip, ← meanOne_prodOp iso, ← meanOne_lin]
      refine congrArg (meanOne · _) (funext fun a => funext fun b => ?_)
      unfold hop
      rw [sum_eq_single (a.1 / 2)]
      · by_cases e : a = b
        · subst e
          simp
        · rw [if_neg e, if_neg fun h => e (Fin.ext (by omega)), mul_zero]
      · exact fun i _ hi => by rw [if_neg fun h => hi h.2.1.symm, mul_zero]
      · exact fun h => absurd (mem_range.2 (by omega)) h
    rw [e]
    refine (HasDerivAt.fun_sum fun i _ => (move Ψ ev t i).const_mul _).congr_deriv ?_
    rw [sum_by_parts (fun i => (δ i : ℂ)), flow_last (by omega), show num - 1 = num - 2 + 1 by omega, sum_range_succ',
      cur (Ψ t) 0 (by omega)]
    simp only [flow, mul_zero, sub_zero, add_zero]
    refine sum_congr rfl fun i hi => ?_
    rw [cur (Ψ t) (i + 1) (by have := mem_range.1 hi; omega), flow_succ, hδ, ← Complex.ofReal_sub]
    congr 2
    simp only [hlin]
    push_cast
    ring
  · have base := (back Ψ ev).diagonal herm (loc t) fun a => (δ (a.1 / 2) : ℂ)
    have e : (fun t => meanOne (spinDipole (num - 2) d 0) (Ψ t)) = fun t => meanOne (fun p q : Fin (2 * (num - 2)) => if p = q then
        (δ (p.1 / 2) : ℂ) else 0) (prodOp (fun _ => Matrix.of (spinMat (num - 2) (num - 2) C)) (Ψ t)) := funext fun t => by
      rw [spin_dipole_changed (δ := δ) hC dip, ← meanOne_prodOp iso]
    rw [e] at hv
    obtain rfl := hv.unique base
    set Χ := prodOp (fun _ => Matrix.of (spinMat (num - 2) (num - 2) C)) (Ψ t) with hΧ
    have nrm : ∑ x, ‖Χ x‖ ^ 2 = ∑ x, ‖Ψ t x‖ ^ 2 := by
      have := waveInner_prodOp (Matrix.of (spinMat (num - 2) (num - 2) C)) (Ψ t) Χ
      rw [← hΧ, waveInner_self, hΧ, prodOp_inverse iso, waveInner_self] at this
      exact_mod_cast this
    have hin : ∀ p < (num - 2), |x (p + 1)| ≤ L := fun p hp => by
      have := grid_mem hL h3 (i := p + 1) (by omega) (by omega)
      rw [← hdx, ← hlin] at this
      rw [abs_le]
      constructor <;> linarith
    have nb : ∀ p < (num - 2), ∀ q < (num - 2), (p + 1 = q ∨ q + 1 = p) → |δ q - δ p| ≤ dx * (1 + 2 * |beta| * L) :=
      fun p hp q hq hpq => by
        have f : δ q - δ p = (x (q + 1) - x (p + 1)) * (1 + beta * (x (q + 1) + x (p + 1))) := by
          rw [hδ]
          ring
        have g : |x (q + 1) - x (p + 1)| = dx := by
          rw [hlin, hlin]
          rcases hpq with e | e
          · rw [← e, show (-L + ((p + 1 + 1 : ℕ) : ℝ) * dx) - (-L + ((p + 1 : ℕ) : ℝ) * dx) = dx by push_cast; ring,
              abs_of_pos hdx0]
          · rw [← e, show (-L + ((q + 1 : ℕ) : ℝ) * dx) - (-L + ((q + 1 + 1 : ℕ) : ℝ) * dx) = -dx by push_cast; ring, abs_neg,
              abs_of_pos hdx0]
        rw [f, abs_mul, g]
        refine mul_le_mul_of_nonneg_left ?_ hdx0.le
        refine (abs_add_le _ _).trans ?_
        rw [abs_one, abs_mul]
        have := (abs_add_le (x (q + 1)) (x (p + 1))).trans (add_le_add (hin q hq) (hin p hp))
        nlinarith [abs_nonneg beta]
    set κ := (1 + 2 * |beta| * L) / dx with hκ
    have hκ0 : 0 ≤ κ := by positivity
    set K : Fin (2 * (num - 2)) → Fin (2 * (num - 2)) → ℂ := fun p q =>
      Complex.I * (((δ (q.1 / 2) : ℂ) - δ (p.1 / 2)) * spinOne (num - 2) (Hg t) p q) with hK
    have Kn : ∀ p q, ‖K p q‖ ≤ (if q.1 = p.1 + 2 then κ / 2 else 0) + if q.1 + 2 = p.1 then κ / 2 else 0 := fun p q => by
      have z : 0 ≤ (if q.1 = p.1 + 2 then κ / 2 else 0) + if q.1 + 2 = p.1 then κ / 2 else 0 := by
        split_ifs <;> positivity
      have hp : p.1 / 2 < (num - 2) := by omega
      have hq : q.1 / 2 < (num - 2) := by omega
      rw [hK]
      simp only
      rw [norm_mul, Complex.norm_I, one_mul, norm_mul, ← Complex.ofReal_sub, Complex.norm_real, Real.norm_eq_abs, ent]
      by_cases e : p.1 % 2 = q.1 % 2
      · rw [if_pos e]
        by_cases e1 : p.1 / 2 = q.1 / 2
        · rw [e1, sub_self, abs_zero, zero_mul]
          exact z
        · rw [if_neg e1, add_zero, Complex.norm_real, Real.norm_eq_abs]
          unfold fdEntry
          rw [if_neg e1]
          by_cases e2 : p.1 / 2 + 1 = q.1 / 2 ∨ q.1 / 2 + 1 = p.1 / 2
          · rw [if_pos e2]
            have h1 := nb _ hp _ hq e2
            have h2 : |-1 / (2 * dx ^ 2)| = 1 / (2 * dx ^ 2) := by
              rw [neg_div, abs_neg, abs_of_pos (by positivity)]
            have h3 : |δ (q.1 / 2) - δ (p.1 / 2)| * |-1 / (2 * dx ^ 2)| ≤ κ / 2 := by
              rw [h2]
              refine (mul_le_mul_of_nonneg_right h1 (by positivity)).trans (le_of_eq ?_)
              rw [hκ]
              field_simp
            refine h3.trans ?_
            rcases e2 with e2 | e2
            · rw [if_pos (by omega : q.1 = p.1 + 2), if_neg (by omega : ¬q.1 + 2 = p.1)]
              linarith
            · rw [if_neg (by omega : ¬q.1 = p.1 + 2), if_pos (by omega : q.1 + 2 = p.1)]
              linarith
          · rw [if_neg e2, abs_zero, mul_zero]
            exact z
      · rw [if_neg e, norm_zero, mul_zero]
        exact z
    have Ks : ∀ p q, ‖K p q‖ = ‖K q p‖ := fun p q => by
      rw [hK]
      simp only
      rw [norm_mul, norm_mul, norm_mul, norm_mul, ← herm.one t q p, norm_star, norm_sub_rev]
    obtain ⟨ζ, hζ, hv'⟩ := Complex.exists_norm_eq_mul_self (meanOne K Χ)
    have n1 : ∀ p q, ‖ζ * K p q‖ = ‖K p q‖ := fun p q => by rw [norm_mul ζ (K p q), hζ, one_mul]
    have fin := meanOne_le (κ := κ) (form_le_schur (K := fun p q => ζ * K p q) (κ := κ)
      (fun p q => by rw [n1, n1, Ks]) fun p => by
        refine (sum_le_sum (g := fun q : Fin (2 * (num - 2)) => (if q.1 = p.1 + 2 then κ / 2 else 0) +
          if q.1 + 2 = p.1 then κ / 2 else 0) fun q _ => (n1 p q).le.trans (Kn p q)).trans ?_
        have := neighbours_sum_le (κ := κ / 2) (by positivity) p
        linarith) Χ
    rw [meanOne_const, ← hv', Complex.ofReal_re, nrm] at fin
    exact fin

/-- **C147** The same for a system and its `LaserField`: whatever is read in between, `h_t` and `u_t` lead to such electrons. -/
theorem C147_laser {eigh : NDArray ℂ → Except PyErr (NDArray ℂ × NDArray ℂ)} (he : IsEigh eigh) {num : ℕ} {L : ℝ} (hL : 0 < L)
    (h3 : 3 ≤ num) {a alpha beta : ℝ} {V : ℝ → ℝ} {hm : Bool} {np : Module} {sp an : Bool} {b : BasisSet ℂ}
    (run : odqd eigh (num - 2) L num a alpha beta V hm np sp an = .ok b)
    {w w' : World ℂ ℝ} {s o : ℕ} {x : Sys} {y : TEOp ℂ ℝ}
    {pulse : Attr ℂ ℝ} {pol : Option (Attr ℂ ℝ)} {f : ℝ → Val ℂ} {c : ℝ → ℂ} {e : ℝ → ℕ → ℂ}
    (ok : SysOK w s x b) (hy : w.ops[o]? = some y)
    (hk : y.kind = .laser pulse pol) (hp : Given pulse f) (hf : ∀ t, IsNumber (f t) (c t))
    (hpol : GivenPol pol b.dim e)
    (callable : IsCallable pulse ∨ ∃ a, pol = some a ∧ IsCallable a)
    (hset : (setTimeEvolutionOperator s (some o)).run w = (.ok (), w'))
    (hc : ∀ t, star (c t) = c t) (hee : ∀ t, star (e t 0) = e t 0) :
    ∃ d g, b.dipole = some d ∧ b.spf = some g ∧ (∃ H U, Answered w' s o H U) ∧ ∀ H U, Answered w' s o H U → ∀ N,
      Flows N (num - 2) num L beta b g d (fun t => spinOne (num - 2) (H t)) fun t => spinTwo (num - 2) (U t) := by
  obtain ⟨b', h, u, C, run', h1, h2, hC, uni, one, two, d, g, h4, dip, hnp, hl, hdim, hspf, -⟩ :=
    odqd_grid he hL h3 le_rfl a alpha beta V hm np sp an
  obtain rfl := Except.ok.inj (run.symm.trans run')
  have LA := C36_partial ok (by rw [h4]; rfl) hy hk hp hf hpol callable hset
  refine ⟨d, g, h4, hspf, laser_answered LA h2, fun H U A N => ?_⟩
  have an := answered_laser LA h1 h2 h4 A
  obtain ⟨g', hg', -, fl⟩ := C147_flows he hL h3 run h1 h2 h4 (H := H) (U := U) (F := fun t => c t * e t 0) (c := fun _ => 1)
    (fun t => by rw [star_mul', hc, hee]) (fun t => star_one _)
    (fun t p hp q hq => by rw [(an t).1.get p (by omega) q (by omega), hdim, sum_range_one]; ring)
    (fun t p hp q hq r hr s hs => by rw [(an t).2, one_mul]) N
  obtain rfl := Option.some.inj (hspf.symm.trans hg')
  exact fl

/-- **C147** The same while `AdiabaticSwitching` changes the interaction. -/
theorem C147_switching {eigh : NDArray ℂ → Except PyErr (NDArray ℂ × NDArray ℂ)} (he : IsEigh eigh) {num : ℕ} {L : ℝ} (hL : 0 < L)
    (h3 : 3 ≤ num) {a alpha beta : ℝ} {V : ℝ → ℝ} {hm : Bool} {np : Module} {sp an : Bool} {b : BasisSet ℂ}
    (run : odqd eigh (num - 2) L num a alpha beta V hm np sp an = .ok b)
    {w w' : World ℂ ℝ} {s o : ℕ} {x : Sys} {v : Attr ℂ ℝ} {f : ℝ → Val ℂ} {c : ℝ → ℂ} (ok : SysOK w s x b)
    (hy : w.ops[o]? = some (adiabaticSwitching v)) (hp : Given v f) (hf : ∀ t, IsNumber (f t) (c t))
    (hset : (setTimeEvolutionOperator s (some o)).run w = (.ok (), w')) (hc : ∀ t, star (c t) = c t) :
    ∃ d g, b.dipole = some d ∧ b.spf = some g ∧ (∃ H U, Answered w' s o H U) ∧ ∀ H U, Answered w' s o H U → ∀ N,
      Flows N (num - 2) num L beta b g d (fun t => spinOne (num - 2) (H t)) fun t => spinTwo (num - 2) (U t) := by
  obtain ⟨b', h, u, C, run', h1, h2, hC, uni, one, two, d, g, h4, dip, hnp, hl, hdim, hspf, -⟩ :=
    odqd_grid he hL h3 le_rfl a alpha beta V hm np sp an
  obtain rfl := Except.ok.inj (run.symm.trans run')
  have SA := C37_switching ok hy hp hf hset
  refine ⟨d, g, h4, hspf, switching_answered SA h1, fun H U A N => ?_⟩
  have an := answered_switching SA h1 h2 (by rw [hl]; exact two.1) A
  obtain ⟨g', hg', -, fl⟩ := C147_flows he hL h3 run h1 h2 h4 (H := H) (U := U) (F := fun _ => 0) (c := c)
    (fun t => star_zero _) hc
    (fun t p hp q hq => by rw [(an t).1, zero_mul, add_zero])
    (fun t p hp q hq r hr s hs => (an t).2 p (by omega) q (by omega) r (by omega) s (by omega)) N
  obtain rfl := Option.some.inj (hspf.symm.trans hg')
  exact fl

/-- One electron with the values `1` and `i` at two neighbouring points (distance `1`) flows to the right with the current `1`. -/
example : gridCurrent 2 1 (ofFn .complex128 [2, 4] fun i => if i.getD 0 0 + 1 = i.getD 1 0 then 1 else 0)
    (densityMatrix 2 (fun x : Fin 1 → Fin (2 * 2) => if x 0 = 0 then 1 else if x 0 = 2 then Complex.I else 0)) 1 = 1 := by
  have hg : ∀ p < 2, ∀ k < 4, (ofFn .complex128 [2, 4] fun i : List ℕ => if i.getD 0 0 + 1 = i.getD 1 0 then (1 : ℂ) else 0).get [p, k] =
      if p + 1 = k then 1 else 0 := fun p hp k hk => ofFn_get_of (by exact ⟨hp, hk, trivial⟩)
  have hr : ∀ p < 2, ∀ q < 2, (densityMatrix 2 (fun x : Fin 1 → Fin (2 * 2) => if x 0 = 0 then 1 else if x 0 = 2 then Complex.I else 0)).get
      [q, p] = (if p = 0 then 1 else -Complex.I) * (if q = 0 then 1 else Complex.I) := fun p hp q hq => by
    unfold densityMatrix
    rw [ofFn_get_of (by exact ⟨hq, hp, trivial⟩)]
    unfold meanOne waveInner oneBodyOp
    rw [Fintype.sum_equiv (Equiv.funUnique (Fin 1) (Fin (2 * 2))) _ (fun j : Fin (2 * 2) => star (if j = 0 then (1 : ℂ) else if j = 2 then
      Complex.I else 0) * ∑ k : Fin (2 * 2), (if j.1 % 2 = k.1 % 2 ∧ j.1 / 2 = p ∧ k.1 / 2 = q then 1 else 0) *
        (if k = 0 then (1 : ℂ) else if k = 2 then Complex.I else 0)) fun x => by simp]
    interval_cases p <;> interval_cases q <;> simp [Fin.sum_univ_four]
  generalize ofFn .complex128 [2, 4] (fun i : List ℕ => if i.getD 0 0 + 1 = i.getD 1 0 then (1 : ℂ) else 0) = f at *
  generalize densityMatrix 2 (fun x : Fin 1 → Fin (2 * 2) => if x 0 = 0 then 1 else if x 0 = 2 then Complex.I else 0) = rho at *
  unfold gridCurrent
  simp [sum_range_succ, hg, hr]
  field_simp
  norm_num

end QS.Props
