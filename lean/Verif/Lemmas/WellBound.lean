import Verif.Lemmas.Ladder
import Verif.Lemmas.Indices

/-!
# Lower bounds for the one-body elements of the double well
-/

namespace QS.TwoDim

open Finset Idx QS.Spec MeasureTheory

/-- The form of a multiplication by a function that is not negative. -/
theorem plane_form_nonneg (nm : ℕ → ℤ × ℤ) (mass omega : ℝ) (w v w' v' : ℝ → ℝ) (hv : Continuous v) (hv' : Continuous v') (l : ℕ)
    (hw : ∀ p q, IntegrableOn (fun r => r * w r * spfRadial (nm p).1 (nm p).2 mass omega r
            * spfRadial (nm q).1 (nm q).2 mass omega r) (Set.Ioi 0))
    (hw' : ∀ p q, IntegrableOn (fun r => r * w' r * spfRadial (nm p).1 (nm p).2 mass omega r
            * spfRadial (nm q).1 (nm q).2 mass omega r) (Set.Ioi 0))
    (hW : ∀ r t, 0 < r → 0 ≤ w r * v t + w' r * v' t) (c : ℕ → ℂ) :
    0 ≤ (∑ p ∈ range l, ∑ q ∈ range l, star (c p) * planeInner (spfState nm mass omega p)
      (fun r t => ((w r * v t + w' r * v' t : ℝ) : ℂ) * spfState nm mass omega q r t) * c q).re := by
  have cont : ∀ p q (r : ℝ), Continuous (fun t =>
      (starRingEnd ℂ) (spfState nm mass omega p r t)
        * (((w r * v t + w' r * v' t : ℝ) : ℂ) * spfState nm mass omega q r t)) := by
    intro p q r
    simp only [bra_ket]
    have h1 : Continuous fun t : ℝ => ((v t : ℝ) : ℂ) := Complex.continuous_ofReal.comp hv
    have h2 : Continuous fun t : ℝ => ((v' t : ℝ) : ℂ) := Complex.continuous_ofReal.comp hv'
    push_cast
    fun_prop
  have cont1 : ∀ (w v : ℝ → ℝ), Continuous v → ∀ p q (r : ℝ), Continuous (fun t =>
      (starRingEnd ℂ) (spfState nm mass omega p r t)
        * (((w r * v t : ℝ) : ℂ) * spfState nm mass omega q r t)) := by
    intro w v hv p q r
    simp only [bra_ket]
    have h1 : Continuous fun t : ℝ => ((v t : ℝ) : ℂ) := Complex.continuous_ofReal.comp hv
    push_cast
    fun_prop
  have int : ∀ p q, IntegrableOn (fun r : ℝ => (∫ t in (0 : ℝ)..2 * Real.pi, (starRingEnd ℂ) (spfState nm mass omega p r t)
        * (((w r * v t + w' r * v' t : ℝ) : ℂ) * spfState nm mass omega q r t)) * (r : ℂ)) (Set.Ioi 0) := by
    intro p q
    have e : ∀ r : ℝ, (∫ t in (0 : ℝ)..2 * Real.pi, (starRingEnd ℂ) (spfState nm mass omega p r t)
        * (((w r * v t + w' r * v' t : ℝ) : ℂ) * spfState nm mass omega q r t)) * (r : ℂ)
      = (∫ t in (0 : ℝ)..2 * Real.pi, (starRingEnd ℂ) (spfState nm mass omega p r t)
        * (((w r * v t : ℝ) : ℂ) * spfState nm mass omega q r t)) * (r : ℂ)
        + (∫ t in (0 : ℝ)..2 * Real.pi, (starRingEnd ℂ) (spfState nm mass omega p r t)
        * (((w' r * v' t : ℝ) : ℂ) * spfState nm mass omega q r t)) * (r : ℂ) := by
      intro r
      rw [← add_mul, ← intervalIntegral.integral_add ((cont1 w v hv p q r).intervalIntegrable _ _)
        ((cont1 w' v' hv' p q r).intervalIntegrable _ _)]
      congr 2
      funext t
      push_cast
      ring
    simp only [e, plane_inner_factor]
    exact (((hw p q).const_mul _).ofReal.mul_const _).add (((hw' p q).const_mul _).ofReal.mul_const _)
  have sum_eq : (∑ p ∈ range l, ∑ q ∈ range l, star (c p) * planeInner (spfState nm mass omega p)
      (fun r t => ((w r * v t + w' r * v' t : ℝ) : ℂ) * spfState nm mass omega q r t) * c q)
      = ∫ r in Set.Ioi (0 : ℝ), ((∫ t in (0 : ℝ)..2 * Real.pi, (w r * v t + w' r * v' t) *
        ‖∑ q ∈ range l, c q * spfState nm mass omega q r t‖ ^ 2) * r : ℝ) := by
    have a1 : ∀ p q, star (c p) * planeInner (spfState nm mass omega p)
      (fun r t => ((w r * v t + w' r * v' t : ℝ) : ℂ) * spfState nm mass omega q r t) * c q =
        ∫ r in Set.Ioi (0 : ℝ), star (c p) * c q * ((∫ t in (0 : ℝ)..2 * Real.pi, (starRingEnd ℂ) (spfState nm mass omega p r t)
        * (((w r * v t + w' r * v' t : ℝ) : ℂ) * spfState nm mass omega q r t)) * (r : ℂ)) := fun p q => by
      unfold planeInner planeIntegral
      rw [integral_const_mul]
      ring
    simp only [a1]
    rw [sum_congr rfl fun p _ => (integral_finsetSum (range l) fun q _ => ((int p q).const_mul _)).symm,
      ← integral_finsetSum (range l) fun p _ => integrable_finsetSum _ fun q _ => (int p q).const_mul _]
    refine Eq.trans ?_ integral_ofReal
    congr 1
    funext r
    have a2 : ∀ p q, star (c p) * c q * ((∫ t in (0 : ℝ)..2 * Real.pi, (starRingEnd ℂ) (spfState nm mass omega p r t)
        * (((w r * v t + w' r * v' t : ℝ) : ℂ) * spfState nm mass omega q r t)) * (r : ℂ)) =
        (∫ t in (0 : ℝ)..2 * Real.pi, star (c p) * c q * ((starRingEnd ℂ) (spfState nm mass omega p r t)
        * (((w r * v t + w' r * v' t : ℝ) : ℂ) * spfState nm mass omega q r t))) * (r : ℂ) := fun p q => by
      rw [intervalIntegral.integral_const_mul]
      ring
    simp only [a2]
    simp only [← sum_mul]
    change _ = (((∫ t in (0 : ℝ)..2 * Real.pi, (w r * v t + w' r * v' t) *
        ‖∑ q ∈ range l, c q * spfState nm mass omega q r t‖ ^ 2) * r : ℝ) : ℂ)
    rw [sum_congr rfl fun p _ => (intervalIntegral.integral_finset_sum (s := range l) fun q _ =>
        ((cont p q r).const_mul (star (c p) * c q)).intervalIntegrable _ _).symm,
      ← intervalIntegral.integral_finset_sum (s := range l) fun p _ =>
        (continuous_finset_sum _ fun q _ => (cont p q r).const_mul (star (c p) * c q)).intervalIntegrable _ _,
      Complex.ofReal_mul, ← intervalIntegral.integral_ofReal]
    congr 2
    funext t
    have a3 : ∀ z : ℂ, ((‖z‖ ^ 2 : ℝ) : ℂ) = (starRingEnd ℂ) z * z := fun z => by
      rw [Complex.conj_mul']
      norm_cast
    rw [Complex.ofReal_mul, a3, map_sum, sum_mul_sum, mul_sum]
    refine sum_congr rfl fun p _ => ?_
    rw [mul_sum]
    refine sum_congr rfl fun q _ => ?_
    rw [map_mul]
    change (starRingEnd ℂ) (c p) * _ * _ = _
    ring
  rw [sum_eq, Complex.ofReal_re]
  refine setIntegral_nonneg measurableSet_Ioi fun r hr => mul_nonneg ?_ (le_of_lt hr)
  exact intervalIntegral.integral_nonneg (by positivity) fun t _ => mul_nonneg (hW r t hr) (sq_nonneg _)

/-- Half the square of the norm of the radial function with `|m| = k + 1`. -/
noncomputable def shellNorm (mass omega : ℝ) (k n : ℕ) : ℝ := ((n + k + 1).factorial : ℝ) / (n.factorial * (2 * (mass * omega)))

theorem radius_sq {mass omega : ℝ} (hm : 0 < mass) (ho : 0 < omega) (n n' : ℕ) (m : ℤ) :
    mass * omega * ∫ r in Set.Ioi (0 : ℝ), r * r ^ 2 * spfRadial n m mass omega r * spfRadial n' m mass omega r =
      if n = n' then shellNorm mass omega m.natAbs n + (if n = 0 then 0 else shellNorm mass omega m.natAbs (n - 1))
      else if n' = n + 1 then -shellNorm mass omega m.natAbs n
      else if n = n' + 1 then -shellNorm mass omega m.natAbs n' else 0 := by
  obtain ⟨m', h⟩ : ∃ m' : ℤ, m'.natAbs = m.natAbs + 1 := ⟨((m.natAbs + 1 : ℕ) : ℤ), Int.natAbs_natCast _⟩
  rw [← bohr_sq hm ho, ← integral_const_mul]
  set R : ℤ → ℝ → ℝ := fun n r => spfRadial n m' mass omega r with hR
  have I : ∀ a b : ℕ, IntegrableOn (fun r => r ^ 1 * R a r * R b r) (Set.Ioi 0) := fun a b => radial_integrable hm ho 1 _ _ _ _
  have I2 : ∀ a b c d : ℕ, IntegrableOn (fun r => r ^ 1 * R a r * R b r - r ^ 1 * R c r * R d r) (Set.Ioi 0) :=
    fun a b c d => (I a b).sub (I c d)
  have O : ∀ a b : ℕ, ∫ r in Set.Ioi (0 : ℝ), r ^ 1 * R a r * R b r = if a = b then shellNorm mass omega m.natAbs a else 0 :=
    fun a b => by
      rw [hR]
      dsimp only
      rw [radial_orthogonal hm ho _ _ _ _ rfl, h]
      simp only [Int.toNat_natCast]
      unfold shellNorm
      rw [Nat.add_assoc]
  have e : ∀ r : ℝ, bohrRadius mass omega ^ 2 * (r * r ^ 2 * spfRadial n m mass omega r * spfRadial n' m mass omega r) =
      r ^ 1 * (R n r - if n = 0 then 0 else R ((n : ℤ) - 1) r) * (R n' r - if n' = 0 then 0 else R ((n' : ℤ) - 1) r) := fun r => by
    rw [hR]
    dsimp only
    rw [← radial_mul n mass omega r h, ← radial_mul n' mass omega r h]
    ring
  simp only [e]
  cases n with
  | zero =>
    cases n' with
    | zero =>
      simp only [if_true, sub_zero, add_zero]
      rw [O, if_pos rfl]
    | succ n' =>
      simp only [if_true, sub_zero, if_neg (Nat.succ_ne_zero n')]
      rw [show (((n' + 1 : ℕ) : ℤ) - 1) = (n' : ℤ) by push_cast; ring]
      have : ∀ r : ℝ, r ^ 1 * R ((0 : ℕ) : ℤ) r * (R ((n' + 1 : ℕ) : ℤ) r - R (n' : ℤ) r) =
        r ^ 1 * R ((0 : ℕ) : ℤ) r * R ((n' + 1 : ℕ) : ℤ) r - r ^ 1 * R ((0 : ℕ) : ℤ) r * R (n' : ℤ) r := fun r => by ring
      simp only [this]
      rw [integral_sub (I _ _) (I _ _), O, O]
      split_ifs <;> first | contradiction | omega | (subst_vars; simp)
  | succ n =>
    cases n' with
    | zero =>
      simp only [if_true, sub_zero, if_neg (Nat.succ_ne_zero n)]
      rw [show (((n + 1 : ℕ) : ℤ) - 1) = (n : ℤ) by push_cast; ring]
      have : ∀ r : ℝ, r ^ 1 * (R ((n + 1 : ℕ) : ℤ) r - R (n : ℤ) r) * R ((0 : ℕ) : ℤ) r =
        r ^ 1 * R ((n + 1 : ℕ) : ℤ) r * R ((0 : ℕ) : ℤ) r - r ^ 1 * R (n : ℤ) r * R ((0 : ℕ) : ℤ) r := fun r => by ring
      simp only [this]
      rw [integral_sub (I _ _) (I _ _), O, O]
      split_ifs <;> first | contradiction | omega | (subst_vars; simp)
    | succ n' =>
      simp only [if_neg (Nat.succ_ne_zero _)]
      rw [show (((n + 1 : ℕ) : ℤ) - 1) = (n : ℤ) by push_cast; ring, show (((n' + 1 : ℕ) : ℤ) - 1) = (n' : ℤ) by push_cast; ring]
      have : ∀ r : ℝ, r ^ 1 * (R ((n + 1 : ℕ) : ℤ) r - R (n : ℤ) r) * (R ((n' + 1 : ℕ) : ℤ) r - R (n' : ℤ) r) =
        (r ^ 1 * R ((n + 1 : ℕ) : ℤ) r * R ((n' + 1 : ℕ) : ℤ) r - r ^ 1 * R ((n + 1 : ℕ) : ℤ) r * R (n' : ℤ) r) -
        (r ^ 1 * R (n : ℤ) r * R ((n' + 1 : ℕ) : ℤ) r - r ^ 1 * R (n : ℤ) r * R (n' : ℤ) r) := fun r => by ring
      simp only [this]
      rw [integral_sub (I2 _ _ _ _) (I2 _ _ _ _), integral_sub (I _ _) (I _ _), integral_sub (I _ _) (I _ _),
        O, O, O, O]
      split_ifs <;> first | contradiction | omega | (subst_vars; simp)

theorem shellNorm_up {mass omega : ℝ} (hm : 0 < mass) (ho : 0 < omega) (n : ℕ) (m : ℤ) :
    spfNorm n m mass omega ^ 2 * (2 * Real.pi) * shellNorm mass omega m.natAbs n = n + m.natAbs + 1 := by
  have h := spfNorm_sq hm ho (n := n) (m := m) (by omega)
  rw [Int.toNat_natCast] at h
  have e : shellNorm mass omega m.natAbs n =
      ((n + m.natAbs).factorial : ℝ) / (n.factorial * (2 * (mass * omega))) * (n + m.natAbs + 1) := by
    unfold shellNorm
    rw [Nat.factorial_succ]
    push_cast
    ring
  rw [e]
  linear_combination ((n : ℝ) + m.natAbs + 1) * h

theorem shellNorm_down {mass omega : ℝ} (hm : 0 < mass) (ho : 0 < omega) (n : ℕ) (m : ℤ) :
    spfNorm ((n + 1 : ℕ) : ℤ) m mass omega ^ 2 * (2 * Real.pi) * shellNorm mass omega m.natAbs n = n + 1 := by
  have h := spfNorm_sq hm ho (n := ((n + 1 : ℕ) : ℤ)) (m := m) (by omega)
  rw [Int.toNat_natCast] at h
  have e : shellNorm mass omega m.natAbs n =
      ((n + 1 + m.natAbs).factorial : ℝ) / ((n + 1).factorial * (2 * (mass * omega))) * (n + 1) := by
    unfold shellNorm
    rw [Nat.factorial_succ n, show n + 1 + m.natAbs = n + m.natAbs + 1 by omega]
    have : (0 : ℝ) < (n.factorial : ℝ) := by positivity
    push_cast
    field_simp
  rw [e]
  linear_combination ((n : ℝ) + 1) * h

theorem sum_one_hit {f : ℕ → ℤ × ℤ} (hf : Function.Injective f) (z : ℤ × ℤ) {b : ℝ} (hb : 0 ≤ b) (l : ℕ) :
    ∑ q ∈ range l, (if f q = z then b else 0) ≤ b := by
  by_cases h : ∃ q₀ ∈ range l, f q₀ = z
  · obtain ⟨q₀, h0, rfl⟩ := h
    rw [sum_eq_single_of_mem q₀ h0 fun q _ hne => if_neg fun e => hne (hf e), if_pos rfl]
  · rw [sum_eq_zero fun q hq => if_neg fun e => h ⟨q, hq, e⟩]
    exact hb

/-- A matrix is at most the diagonal matrix of its row sums. -/
theorem form_le_rows {A B : ℕ → ℕ → ℝ} {d : ℕ → ℝ} {l : ℕ} (hA : ∀ p q, |A p q| ≤ B p q) (hB : ∀ p q, B p q = B q p)
    (hd : ∀ p, ∑ q ∈ range l, B p q ≤ d p) (c : ℕ → ℂ) :
    (∑ p ∈ range l, ∑ q ∈ range l, star (c p) * (A p q : ℂ) * c q).re ≤ ∑ p ∈ range l, d p * ‖c p‖ ^ 2 := by
  have h1 : (∑ p ∈ range l, ∑ q ∈ range l, star (c p) * (A p q : ℂ) * c q).re ≤
      ∑ p ∈ range l, ∑ q ∈ range l, (1 / 2 * (B p q * ‖c p‖ ^ 2) + 1 / 2 * (B q p * ‖c q‖ ^ 2)) := by
    rw [Complex.re_sum]
    refine sum_le_sum fun p _ => ?_
    rw [Complex.re_sum]
    refine sum_le_sum fun q _ => ?_
    refine (Complex.re_le_norm _).trans ?_
    rw [norm_mul, norm_mul, norm_star, Complex.norm_real, Real.norm_eq_abs, hB q p]
    have h2 := hA p q
    have h3 := (abs_nonneg _).trans h2
    have h4 : ‖c p‖ * |A p q| * ‖c q‖ ≤ B p q * (‖c p‖ * ‖c q‖) := by
      rw [show ‖c p‖ * |A p q| * ‖c q‖ = |A p q| * (‖c p‖ * ‖c q‖) by ring]
      exact mul_le_mul_of_nonneg_right h2 (by positivity)
    nlinarith [mul_nonneg h3 (sq_nonneg (‖c p‖ - ‖c q‖))]
  refine h1.trans ?_
  simp only [sum_add_distrib]
  rw [sum_comm (f := fun p q => 1 / 2 * (B q p * ‖c q‖ ^ 2)), ← sum_add_distrib]
  refine sum_le_sum fun p _ => ?_
  rw [← mul_sum, ← sum_mul]
  have := mul_le_mul_of_nonneg_right (hd p) (sq_nonneg ‖c p‖)
  linarith

/-- The square of the radius times mass and frequency. -/
theorem radius_form {mass omega : ℝ} (hm : 0 < mass) (ho : 0 < omega) {nm : ℕ → ℤ × ℤ} (hn : ∀ p, 0 ≤ (nm p).1)
    (hinj : Function.Injective nm) (l : ℕ) (c : ℕ → ℂ) :
    mass * omega * (∑ p ∈ range l, ∑ q ∈ range l, star (c p) * planeInner (spfState nm mass omega p)
      (fun r t => ((r ^ 2 * 1 : ℝ) : ℂ) * spfState nm mass omega q r t) * c q).re ≤
      ∑ p ∈ range l, (2 * getShellEnergy (nm p).1 (nm p).2 : ℝ) * ‖c p‖ ^ 2 := by
  let A : ℕ → ℕ → ℝ := fun p q => if (nm p).2 = (nm q).2 then mass * omega *
    (spfNorm (nm p).1 (nm p).2 mass omega * spfNorm (nm q).1 (nm q).2 mass omega * (2 * Real.pi)
      * ∫ r in Set.Ioi (0 : ℝ), r * r ^ 2 * spfRadial (nm p).1 (nm p).2 mass omega r
            * spfRadial (nm q).1 (nm q).2 mass omega r) else 0
  let B : ℕ → ℕ → ℝ := fun p q => (if nm q = nm p then (2 * (nm p).1 + (nm p).2.natAbs + 1 : ℝ) else 0) +
    (if nm q = ((nm p).1 + 1, (nm p).2) then 1 / 2 * (2 * (nm p).1 + (nm p).2.natAbs + 2 : ℝ) else 0) +
    (if nm q = ((nm p).1 - 1, (nm p).2) then 1 / 2 * (2 * (nm p).1 + (nm p).2.natAbs : ℝ) else 0)
  have hn' : ∀ p, (0 : ℝ) ≤ (nm p).1 := fun p => by exact_mod_cast hn p
  have eA : mass * omega * (∑ p ∈ range l, ∑ q ∈ range l, star (c p) * planeInner (spfState nm mass omega p)
      (fun r t => ((r ^ 2 * 1 : ℝ) : ℂ) * spfState nm mass omega q r t) * c q).re =
      (∑ p ∈ range l, ∑ q ∈ range l, star (c p) * (A p q : ℂ) * c q).re := by
    rw [← Complex.re_ofReal_mul]
    congr 1
    simp only [mul_sum]
    refine sum_congr rfl fun p _ => sum_congr rfl fun q _ => ?_
    rw [plane_factor nm mass omega (fun r => r ^ 2) (fun _ => 1) p q, angular_one]
    simp only [A]
    split_ifs
    · push_cast
      ring
    · simp
  rw [eA]
  refine form_le_rows (B := B) (fun p q => ?_) (fun p q => ?_) (fun p => ?_) c
  · have nnB : 0 ≤ B p q := by
      simp only [B]
      have := hn' p
      refine add_nonneg (add_nonneg ?_ ?_) ?_ <;> split_ifs <;> positivity
    by_cases hmm : (nm p).2 = (nm q).2
    · obtain ⟨n, e1⟩ := Int.eq_ofNat_of_zero_le (hn p)
      obtain ⟨n', e2⟩ := Int.eq_ofNat_of_zero_le (hn q)
      have hp : nm p = ((n : ℤ), (nm q).2) := Prod.ext e1 hmm
      have hq : nm q = ((n' : ℤ), (nm q).2) := Prod.ext e2 rfl
      generalize (nm q).2 = m at hp hq hmm
      have eAv : A p q = spfNorm n m mass omega * spfNorm n' m mass omega * (2 * Real.pi) *
          (if n = n' then shellNorm mass omega m.natAbs n + (if n = 0 then 0 else shellNorm mass omega m.natAbs (n - 1))
            else if n' = n + 1 then -shellNorm mass omega m.natAbs n
            else if n = n' + 1 then -shellNorm mass omega m.natAbs n' else 0) := by
        rw [← radius_sq hm ho n n' m]
        simp only [A, hp, hq, if_true]
        ring
      have pos : ∀ k : ℕ, 0 ≤ shellNorm mass omega m.natAbs k := fun k => by unfold shellNorm; positivity
      have off : ∀ k : ℕ, |spfNorm k m mass omega * spfNorm ((k + 1 : ℕ) : ℤ) m mass omega * (2 * Real.pi) *
          -shellNorm mass omega m.natAbs k| ≤ 1 / 2 * (2 * k + m.natAbs + 2) := fun k => by
        have u1 := shellNorm_up hm ho k m
        have u2 := shellNorm_down hm ho k m
        have hg := mul_nonneg (by positivity : 0 ≤ 2 * Real.pi) (pos k)
        rw [abs_le]
        constructor
        · nlinarith [mul_nonneg hg (sq_nonneg (spfNorm k m mass omega - spfNorm ((k + 1 : ℕ) : ℤ) m mass omega))]
        · nlinarith [mul_nonneg hg (sq_nonneg (spfNorm k m mass omega + spfNorm ((k + 1 : ℕ) : ℤ) m mass omega))]
      by_cases h1 : n = n'
      · subst h1
        rw [eAv, if_pos rfl]
        have eB : 2 * n + m.natAbs + 1 ≤ B p q := by
          simp only [B, hp, hq, if_true, Prod.mk.injEq, and_true]
          rw [if_neg (by omega), if_neg (by omega)]
          push_cast
          linarith
        refine le_trans (le_of_eq ?_) eB
        have u1 := shellNorm_up hm ho n m
        cases n with
        | zero =>
          rw [if_pos rfl, add_zero, show spfNorm ((0 : ℕ) : ℤ) m mass omega * spfNorm ((0 : ℕ) : ℤ) m mass omega * (2 * Real.pi) *
            shellNorm mass omega m.natAbs 0 = spfNorm ((0 : ℕ) : ℤ) m mass omega ^ 2 * (2 * Real.pi) *
            shellNorm mass omega m.natAbs 0 by ring, u1, abs_of_nonneg (by positivity)]
          push_cast
          ring
        | succ k =>
          have u2 := shellNorm_down hm ho k m
          rw [if_neg (Nat.succ_ne_zero k), Nat.add_sub_cancel]
          have e3 : spfNorm ((k + 1 : ℕ) : ℤ) m mass omega * spfNorm ((k + 1 : ℕ) : ℤ) m mass omega * (2 * Real.pi) *
              (shellNorm mass omega m.natAbs (k + 1) + shellNorm mass omega m.natAbs k) =
              2 * ((k + 1 : ℕ) : ℝ) + m.natAbs + 1 := by
            push_cast at u1 u2 ⊢
            linear_combination u1 + u2
          rw [e3, abs_of_nonneg (by positivity)]
      · rw [eAv, if_neg h1]
        by_cases h2 : n' = n + 1
        · subst h2
          rw [if_pos rfl]
          refine (off n).trans ?_
          simp only [B, hp, hq, Prod.mk.injEq, and_true]
          rw [if_neg (by omega), if_pos (by push_cast; ring), if_neg (by omega)]
          push_cast
          linarith
        · rw [if_neg h2]
          by_cases h3 : n = n' + 1
          · subst h3
            rw [if_pos rfl, mul_comm (spfNorm ((n' + 1 : ℕ) : ℤ) m mass omega)]
            refine (off n').trans ?_
            simp only [B, hp, hq, Prod.mk.injEq, and_true]
            rw [if_neg (by omega), if_neg (by omega), if_pos (by push_cast; ring)]
            push_cast
            linarith
          · rw [if_neg h3, mul_zero, abs_zero]
            exact nnB
    · have : A p q = 0 := if_neg hmm
      rw [this, abs_zero]
      exact nnB
  · simp only [B]
    have e1 : (if nm q = nm p then (2 * (nm p).1 + (nm p).2.natAbs + 1 : ℝ) else 0) =
        if nm p = nm q then (2 * (nm q).1 + (nm q).2.natAbs + 1 : ℝ) else 0 := by
      by_cases h : nm p = nm q
      · rw [if_pos h, if_pos h.symm, h]
      · rw [if_neg h, if_neg fun e => h e.symm]
    have e2 : ∀ p q, (if nm q = ((nm p).1 + 1, (nm p).2) then 1 / 2 * (2 * (nm p).1 + (nm p).2.natAbs + 2 : ℝ) else 0) =
        if nm p = ((nm q).1 - 1, (nm q).2) then 1 / 2 * (2 * (nm q).1 + (nm q).2.natAbs : ℝ) else 0 := fun p q => by
      by_cases h : nm q = ((nm p).1 + 1, (nm p).2)
      · rw [if_pos h, if_pos (by rw [h]; simp), h]
        push_cast
        ring
      · rw [if_neg h, if_neg fun e => h (by rw [e]; simp)]
    rw [e1, e2 p q, ← e2 q p]
    ring
  · simp only [B, sum_add_distrib]
    have h0 := hn' p
    refine (add_le_add (add_le_add (sum_one_hit hinj _ (by positivity) l) (sum_one_hit hinj _ (by positivity) l))
      (sum_one_hit hinj _ (by positivity) l)).trans (le_of_eq ?_)
    unfold getShellEnergy
    rw [Nat.cast_natAbs]
    push_cast
    ring

end QS.TwoDim
