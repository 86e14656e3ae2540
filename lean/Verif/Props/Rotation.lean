import Verif.Lemmas.Rotation
import Verif.Props.Stark

/-!
# Electrons in rotated, rotating and mirrored fields (C152)
-/

namespace QS.Props

open NDArray Spec BasisSet Finset World TwoDim Idx Coulomb

/-! ## Phases -/

theorem turn_vector {k C S F G D : ℂ} (kk : k * k = 1) (cs : C * C + S * S = 1) :
    F * D + G * (-k * Complex.I * D) = (C + Complex.I * k * S) * ((C * F - S * G) * D + (S * F + C * G) * (-k * Complex.I * D)) := by
  have ii := Complex.I_mul_I
  generalize Complex.I = i at *
  linear_combination (-(F - k * i * G) * D) * cs + ((S * S * F + S * C * G) * D) * (i * i * kk + ii)

/-- What a rotation makes of the elements of the dipole moment along a field. -/
theorem rotates_dipole {m : ℕ → ℤ} {l : ℕ} {h u d : NDArray ℂ} (R : Rotates m l h u d) (φ : ℝ) {F G F' G' : ℂ}
    (e0 : F' = Real.cos φ * F - Real.sin φ * G) (e1 : G' = Real.sin φ * F + Real.cos φ * G) {p q : ℕ} (hp : p < l) (hq : q < l) :
    F * d.get [0, p, q] + G * d.get [1, p, q] = star (Complex.exp (-Complex.I * (φ * m p)))
      * (F' * d.get [0, p, q] + G' * d.get [1, p, q]) * Complex.exp (-Complex.I * (φ * m q)) := by
  rw [mul_right_comm, rotation_phase φ (m p) (m q)]
  by_cases e : |m p - m q| = 1
  · rw [R.vector p hp q hq e, vector_phase φ e, e0, e1, show ((m q : ℂ) - m p) = -((m p - m q : ℤ) : ℂ) by push_cast; ring]
    refine turn_vector ?_ ?_
    · rcases (abs_eq zero_le_one).1 e with e | e <;> rw [e] <;> norm_num
    · have := Real.cos_sq_add_sin_sq φ
      rw [sq, sq] at this
      exact_mod_cast this
  · have z := R.other p hp q hq e
    rw [z.1, z.2]
    simp

/-- What a rotation makes of the elements in a field. -/
theorem rotates_one {m : ℕ → ℤ} {l : ℕ} {h u d : NDArray ℂ} (R : Rotates m l h u d) (φ : ℝ) {F G F' G' : ℂ}
    (e0 : F' = Real.cos φ * F - Real.sin φ * G) (e1 : G' = Real.sin φ * F + Real.cos φ * G) {H H' : NDArray ℂ}
    (gH : ∀ p < l, ∀ q < l, H.get [p, q] = h.get [p, q] + (F * d.get [0, p, q] + G * d.get [1, p, q]))
    (gH' : ∀ p < l, ∀ q < l, H'.get [p, q] = h.get [p, q] + (F' * d.get [0, p, q] + G' * d.get [1, p, q])) (p q : Fin (2 * l)) :
    spinOne l H p q = star (turnPhase m l φ p) * spinOne l H' p q * turnPhase m l φ q := by
  unfold spinOne
  split_ifs
  · have hp : p.1 / 2 < l := by omega
    have hq : q.1 / 2 < l := by omega
    rw [gH _ hp _ hq, gH' _ hp _ hq, rotates_dipole R φ e0 e1 hp hq]
    unfold turnPhase
    have k : h.get [p.1 / 2, q.1 / 2] = star (Complex.exp (-Complex.I * (φ * m (p.1 / 2)))) * h.get [p.1 / 2, q.1 / 2]
        * Complex.exp (-Complex.I * (φ * m (q.1 / 2))) := by
      rw [mul_right_comm, rotation_phase]
      by_cases em : m (p.1 / 2) = m (q.1 / 2)
      · rw [em]
        simp
      · rw [R.one _ hp _ hq em, mul_zero]
    linear_combination k
  · simp

/-- The interaction does not see a rotation. -/
theorem rotates_two {m : ℕ → ℤ} {l : ℕ} {h u d : NDArray ℂ} (R : Rotates m l h u d) (φ : ℝ) (p q r s : Fin (2 * l)) :
    spinTwo l u p q r s =
      star (turnPhase m l φ p) * star (turnPhase m l φ q) * spinTwo l u p q r s * turnPhase m l φ r * turnPhase m l φ s := by
  unfold spinTwo
  split_ifs
  · by_cases e : m (p.1 / 2) + m (q.1 / 2) = m (r.1 / 2) + m (s.1 / 2)
    · have k : star (turnPhase m l φ p) * star (turnPhase m l φ q) * (turnPhase m l φ r * turnPhase m l φ s) = 1 := by
        unfold turnPhase
        rw [← star_mul', ← Complex.exp_add, ← Complex.exp_add, ← mul_add, ← mul_add, ← mul_add, ← mul_add, ← Int.cast_add,
          ← Int.cast_add, rotation_phase, e, sub_self]
        simp
      linear_combination (-u.get [p.1 / 2, q.1 / 2, r.1 / 2, s.1 / 2]) * k
    · rw [R.two _ (by omega) _ (by omega) _ (by omega) _ (by omega) e]
      simp
  · simp

/-! ## The motion -/

/-- **C152** A system with a `LaserField` whose functions have angular momenta, and a system with the same elements and with the
field that is turned by the angle `φ(t)`: if the electrons move in the first one, the wave function that is turned by `φ(t)` moves
in the second one, with the additional term `φ'(t)` times the angular momentum. -/
theorem C152_frame {m : ℕ → ℤ} {b : BasisSet ℂ} {h u d : NDArray ℂ} (hh : b.h = some h) (hu : b.u = some u)
    (hd : b.dipole = some d) (dim : b.dim = 2) (R : Rotates m b.l h u d) {w w' : World ℂ ℝ} {s o s' o' : ℕ} {c c' : ℝ → ℂ}
    {e e' : ℝ → ℕ → ℂ} (LA : LaserAnswers w s o b c e) (LA' : LaserAnswers w' s' o' b c' e') {φ φ' : ℝ → ℝ}
    (hφ : ∀ t, HasDerivAt φ (φ' t) t)
    (turn : ∀ t, c' t * e' t 0 = Real.cos (φ t) * (c t * e t 0) - Real.sin (φ t) * (c t * e t 1) ∧
      c' t * e' t 1 = Real.sin (φ t) * (c t * e t 0) + Real.cos (φ t) * (c t * e t 1))
    {H U H' U' : ℝ → NDArray ℂ} (A : Answered w s o H U) (A' : Answered w' s' o' H' U') {N : ℕ} {Ψ : ℝ → Wave ℂ N (2 * b.l)}
    (S : Evolves (fun t => spinOne b.l (H t)) (fun t => spinTwo b.l (U t)) Ψ) :
    Evolves (fun t p q => spinOne b.l (H' t) p q + φ' t * angularMomentum m b.l p q) (fun t => spinTwo b.l (U' t))
      fun t => turnedWave (turnPhase m b.l (φ t)) (Ψ t) := by
  have an := answered_laser LA hh hu hd A
  have an' := answered_laser LA' hh hu hd A'
  refine Evolves.turned (m := fun p => m (p.1 / 2)) hφ (c := fun t => turnPhase m b.l (φ t)) (fun t p => rfl)
    (fun t p q => rotates_one R (φ t) (turn t).1 (turn t).2 (fun p hp q hq => ?_) (fun p hp q hq => ?_) p q) (fun t p q r s => ?_) S
  · rw [(an t).1.get p hp q hq, dim, sum_range_succ, sum_range_one]
    ring
  · rw [(an' t).1.get p hp q hq, dim, sum_range_succ, sum_range_one]
    ring
  · rw [(an t).2, (an' t).2]
    exact rotates_two R (φ t) p q r s

/-- **C152** Hence, if the field is turned by a constant angle, so are the wave functions. -/
theorem C152_rotated {m : ℕ → ℤ} {b : BasisSet ℂ} {h u d : NDArray ℂ} (hh : b.h = some h) (hu : b.u = some u)
    (hd : b.dipole = some d) (dim : b.dim = 2) (R : Rotates m b.l h u d) {w w' : World ℂ ℝ} {s o s' o' : ℕ} {c c' : ℝ → ℂ}
    {e e' : ℝ → ℕ → ℂ} (LA : LaserAnswers w s o b c e) (LA' : LaserAnswers w' s' o' b c' e') {φ : ℝ}
    (turn : ∀ t, c' t * e' t 0 = Real.cos φ * (c t * e t 0) - Real.sin φ * (c t * e t 1) ∧
      c' t * e' t 1 = Real.sin φ * (c t * e t 0) + Real.cos φ * (c t * e t 1))
    {H U H' U' : ℝ → NDArray ℂ} (A : Answered w s o H U) (A' : Answered w' s' o' H' U') {N : ℕ} {Ψ : ℝ → Wave ℂ N (2 * b.l)}
    (S : Evolves (fun t => spinOne b.l (H t)) (fun t => spinTwo b.l (U t)) Ψ) :
    Evolves (fun t => spinOne b.l (H' t)) (fun t => spinTwo b.l (U' t)) fun t => turnedWave (turnPhase m b.l φ) (Ψ t) := by
  have k := C152_frame hh hu hd dim R LA LA' (φ := fun _ => φ) (φ' := fun _ => 0) (fun t => hasDerivAt_const t φ) turn A A' S
  simpa only [Complex.ofReal_zero, zero_mul, add_zero] using k

theorem meanOne_turned {N L : ℕ} {a a' : Fin L → Fin L → ℂ} {c : Fin L → ℂ} (hc : ∀ p, star (c p) * c p = 1)
    (e1 : ∀ p q, a p q = star (c p) * a' p q * c q) (Ψ : Wave ℂ N L) : meanOne a' (turnedWave c Ψ) = meanOne a Ψ := by
  have z : ∀ (a : Fin L → Fin L → ℂ) (Ψ : Wave ℂ N L), hamiltonOp a (fun _ _ _ _ => 0) Ψ = oneBodyOp a Ψ := fun a Ψ => by
    funext x
    simp [hamiltonOp, twoBodyOp]
  unfold meanOne
  rw [← z, hamiltonOp_turned (u := fun _ _ _ _ => 0) hc e1 (fun p q r s => by simp), turnedWave_inner hc, z]

/-- **C152** The dipole moment turns by the same angle. -/
theorem C152_dipole {m : ℕ → ℤ} {l : ℕ} {h u d : NDArray ℂ} (R : Rotates m l h u d) (φ : ℝ) {N : ℕ} (Ψ : Wave ℂ N (2 * l)) :
    meanOne (spinDipole l d 0) (turnedWave (turnPhase m l φ) Ψ) =
        Real.cos φ * meanOne (spinDipole l d 0) Ψ - Real.sin φ * meanOne (spinDipole l d 1) Ψ ∧
      meanOne (spinDipole l d 1) (turnedWave (turnPhase m l φ) Ψ) =
        Real.sin φ * meanOne (spinDipole l d 0) Ψ + Real.cos φ * meanOne (spinDipole l d 1) Ψ := by
  have lin : ∀ F G : ℂ, meanOne (fun p q => F * spinDipole l d 0 p q + G * spinDipole l d 1 p q) Ψ =
      F * meanOne (spinDipole l d 0) Ψ + G * meanOne (spinDipole l d 1) Ψ := fun F G => by
    obtain ⟨γ, hγ⟩ := meanOne_expand Ψ
    simp only [hγ, mul_sum, ← sum_add_distrib]
    exact sum_congr rfl fun p _ => sum_congr rfl fun q _ => by ring
  have cs : (Real.cos φ : ℂ) * Real.cos φ + Real.sin φ * Real.sin φ = 1 := by
    have := Real.cos_sq_add_sin_sq φ
    rw [sq, sq] at this
    exact_mod_cast this
  constructor
  · rw [meanOne_turned (a := fun p q => Real.cos φ * spinDipole l d 0 p q + -Real.sin φ * spinDipole l d 1 p q)
      (turnPhase_unit m l φ) fun p q => ?_, lin]
    · ring
    · unfold spinDipole
      split_ifs
      · have k := rotates_dipole R φ (F := Real.cos φ) (G := -Real.sin φ) (F' := 1) (G' := 0) (by linear_combination -cs) (by ring)
          (show p.1 / 2 < l by omega) (show q.1 / 2 < l by omega)
        rw [k]
        simp only [one_mul, zero_mul, add_zero]
        rfl
      · simp
  · rw [meanOne_turned (a := fun p q => Real.sin φ * spinDipole l d 0 p q + Real.cos φ * spinDipole l d 1 p q)
      (turnPhase_unit m l φ) fun p q => ?_, lin]
    unfold spinDipole
    split_ifs
    · have k := rotates_dipole R φ (F := Real.sin φ) (G := Real.cos φ) (F' := 0) (G' := 1) (by ring) (by linear_combination -cs)
        (show p.1 / 2 < l by omega) (show q.1 / 2 < l by omega)
      rw [k]
      simp only [one_mul, zero_mul, zero_add]
      rfl
    · simp

/-! ## Fields that rotate -/

/-- **C152** In a field of constant strength that rotates with the frequency `ω`, the energy minus `ω` times the angular momentum
does not change: for every angular momentum they gain, the electrons take the energy `ω` from the field. -/
theorem C152_circular {m : ℕ → ℤ} {b : BasisSet ℂ} {h u d : NDArray ℂ} (hh : b.h = some h) (hu : b.u = some u)
    (hd : b.dipole = some d) (dim : b.dim = 2) (R : Rotates m b.l h u d) (Hh : HermMat b.l h) (Hu : HermU b.l u)
    (Hd : HermDip b.dim b.l d) {w : World ℂ ℝ} {s o : ℕ} {c : ℝ → ℂ} {e : ℝ → ℕ → ℂ} (LA : LaserAnswers w s o b c e) {ω F G : ℝ}
    (field : ∀ t, c t * e t 0 = Real.cos (ω * t) * F - Real.sin (ω * t) * G ∧
      c t * e t 1 = Real.sin (ω * t) * F + Real.cos (ω * t) * G)
    {H U : ℝ → NDArray ℂ} (A : Answered w s o H U) {N : ℕ} {Ψ : ℝ → Wave ℂ N (2 * b.l)}
    (S : Evolves (fun t => spinOne b.l (H t)) (fun t => spinTwo b.l (U t)) Ψ) (s' t : ℝ) :
    meanEnergy (spinOne b.l (H t)) (spinTwo b.l (U t)) (Ψ t) - ω * meanOne (angularMomentum m b.l) (Ψ t) =
      meanEnergy (spinOne b.l (H s')) (spinTwo b.l (U s')) (Ψ s') - ω * meanOne (angularMomentum m b.l) (Ψ s') := by
  have an := answered_laser LA hh hu hd A
  have get : ∀ t, ∀ p < b.l, ∀ q < b.l, (H t).get [p, q] =
      h.get [p, q] + (c t * e t 0 * d.get [0, p, q] + c t * e t 1 * d.get [1, p, q]) := fun t p hp q hq => by
    rw [(an t).1.get p hp q hq, dim, sum_range_succ, sum_range_one]
    ring
  have f0 := field 0
  rw [mul_zero, Real.cos_zero, Real.sin_zero] at f0
  push_cast at f0
  rw [one_mul, zero_mul, sub_zero, zero_mul, one_mul, zero_add] at f0
  have one : ∀ t p q, spinOne b.l (H t) p q =
      star (turnPhase m b.l (-(ω * t)) p) * spinOne b.l (H 0) p q * turnPhase m b.l (-(ω * t)) q := fun t p q => by
    have cs : (Real.cos (ω * t) : ℂ) * Real.cos (ω * t) + Real.sin (ω * t) * Real.sin (ω * t) = 1 := by
      have := Real.cos_sq_add_sin_sq (ω * t)
      rw [sq, sq] at this
      exact_mod_cast this
    refine rotates_one R _ ?_ ?_ (get t) (get 0) p q
    · rw [f0.1, (field t).1, (field t).2, Real.cos_neg, Real.sin_neg]
      push_cast
      push_cast at cs
      linear_combination (-F : ℂ) * cs
    · rw [f0.2, (field t).1, (field t).2, Real.cos_neg, Real.sin_neg]
      push_cast
      push_cast at cs
      linear_combination (-G : ℂ) * cs
  have two : ∀ t p q r s, spinTwo b.l (U t) p q r s = star (turnPhase m b.l (-(ω * t)) p) * star (turnPhase m b.l (-(ω * t)) q)
      * spinTwo b.l u p q r s * turnPhase m b.l (-(ω * t)) r * turnPhase m b.l (-(ω * t)) s := fun t p q r s => by
    rw [(an t).2]
    exact rotates_two R _ p q r s
  have hφ : ∀ t : ℝ, HasDerivAt (fun t : ℝ => -(ω * t)) (-ω) t := fun t => by
    simpa using ((hasDerivAt_id t).const_mul ω).fun_neg
  have ev := Evolves.turned (m := fun p => m (p.1 / 2)) (φ' := fun _ => -ω) hφ (c := fun t => turnPhase m b.l (-(ω * t)))
    (h' := fun _ => spinOne b.l (H 0)) (u' := fun _ => spinTwo b.l u) (fun t p => rfl) one two S
  have herm : HermitianElements (fun (_ : ℝ) p q => spinOne b.l (H 0) p q + ((-ω : ℝ) : ℂ) * if p = q then (m (p.1 / 2) : ℂ) else 0)
      (fun _ => spinTwo b.l u) := by
    refine ⟨fun _ p q => ?_, fun _ => spinTwo_herm Hu⟩
    rw [star_add, spinOne_herm (fun p hp q hq => ?_), star_mul', Complex.star_def, Complex.conj_ofReal]
    · congr 2
      by_cases hpq : p = q
      · rw [hpq, if_pos rfl]
        simp
      · rw [if_neg hpq, if_neg (Ne.symm hpq)]
        simp
    · rw [get 0 p hp q hq, get 0 q hq p hp, f0.1, f0.2, Hh p hp q hq, Hd 0 (by omega) p hp q hq, Hd 1 (by omega) p hp q hq]
      simp
  have const : ∀ t, HasDerivAt (fun t => meanEnergy (fun p q => spinOne b.l (H 0) p q + ((-ω : ℝ) : ℂ) * if p = q then (m (p.1 / 2) : ℂ) else 0)
      (spinTwo b.l u) (turnedWave (turnPhase m b.l (-(ω * t))) (Ψ t))) 0 t := fun t => by
    refine (C127_energy ev herm (h' := fun _ _ => 0) (u' := fun _ _ _ _ => 0) (fun p q => hasDerivAt_const t _)
      (fun p q r s => hasDerivAt_const t _)).congr_deriv ?_
    simp [meanEnergy, waveInner, hamiltonOp, oneBodyOp, twoBodyOp]
  have k := is_const_of_deriv_eq_zero (fun t => (const t).differentiableAt) (fun t => (const t).deriv) t s'
  have back : ∀ t, meanEnergy (fun p q => spinOne b.l (H 0) p q + ((-ω : ℝ) : ℂ) * if p = q then (m (p.1 / 2) : ℂ) else 0)
      (spinTwo b.l u) (turnedWave (turnPhase m b.l (-(ω * t))) (Ψ t)) =
        meanEnergy (spinOne b.l (H t)) (spinTwo b.l (U t)) (Ψ t) - ω * meanOne (angularMomentum m b.l) (Ψ t) := fun t => by
    unfold meanEnergy
    rw [show hamiltonOp (fun p q => spinOne b.l (H 0) p q + ((-ω : ℝ) : ℂ) * if p = q then (m (p.1 / 2) : ℂ) else 0) (spinTwo b.l u)
        (turnedWave (turnPhase m b.l (-(ω * t))) (Ψ t)) =
        turnedWave (turnPhase m b.l (-(ω * t))) (fun x => hamiltonOp (spinOne b.l (H t)) (spinTwo b.l (U t)) (Ψ t) x
          + ((-ω : ℝ) : ℂ) * oneBodyOp (angularMomentum m b.l) (Ψ t) x) from ?_, turnedWave_inner (turnPhase_unit m b.l _),
      waveInner_add, waveInner_smul]
    · unfold meanOne
      push_cast
      ring
    · funext x
      rw [hamiltonOp_diagonal, hamiltonOp_turned (turnPhase_unit m b.l _) (one t) (two t),
        show angularMomentum m b.l = fun p q => if p = q then (m (p.1 / 2) : ℂ) else 0 from rfl]
      unfold turnedWave
      dsimp only
      rw [oneBodyOp_diagonal]
      ring
  rw [back, back] at k
  exact k

/-! ## Mirrored fields -/

/-- **C152** A system whose functions have parities, and a system with the same elements and with the opposite field: if the
electrons move in the first one, the mirrored wave function moves in the second one. -/
theorem C152_mirrored {g : ℕ → ZMod 2} {b : BasisSet ℂ} {h u d : NDArray ℂ} (hh : b.h = some h) (hu : b.u = some u)
    (hd : b.dipole = some d) (P : HasParity g b.l b.dim h u d) {w w' : World ℂ ℝ} {s o s' o' : ℕ} {c c' : ℝ → ℂ}
    {e e' : ℝ → ℕ → ℂ} (LA : LaserAnswers w s o b c e) (LA' : LaserAnswers w' s' o' b c' e')
    (opposite : ∀ t, ∀ k < b.dim, c' t * e' t k = -(c t * e t k))
    {H U H' U' : ℝ → NDArray ℂ} (A : Answered w s o H U) (A' : Answered w' s' o' H' U') {N : ℕ} {Ψ : ℝ → Wave ℂ N (2 * b.l)}
    (S : Evolves (fun t => spinOne b.l (H t)) (fun t => spinTwo b.l (U t)) Ψ) :
    Evolves (fun t => spinOne b.l (H' t)) (fun t => spinTwo b.l (U' t))
        (fun t => turnedWave (fun p => paritySign (g (p.1 / 2))) (Ψ t)) ∧
      ∀ k < b.dim, ∀ t, meanOne (spinDipole b.l d k) (turnedWave (fun p => paritySign (g (p.1 / 2))) (Ψ t)) =
        -meanOne (spinDipole b.l d k) (Ψ t) := by
  have an := answered_laser LA hh hu hd A
  have an' := answered_laser LA' hh hu hd A'
  have unit : ∀ p : Fin (2 * b.l), star (paritySign (g (p.1 / 2))) * paritySign (g (p.1 / 2)) = 1 := fun p => by
    rw [paritySign_star, paritySign_sq]
  have flip : ∀ k < b.dim, ∀ p < b.l, ∀ q < b.l, -d.get [k, p, q] = paritySign (g p) * d.get [k, p, q] * paritySign (g q) :=
    fun k hk p hp q hq => by
    by_cases hg : g p = g q
    · rw [P.dipole k hk p hp q hq hg]
      simp
    · rcases paritySign_cases (g p) with ⟨x, hx⟩ | ⟨x, hx⟩ <;> rcases paritySign_cases (g q) with ⟨y, hy⟩ | ⟨y, hy⟩
      · exact absurd (x.trans y.symm) hg
      · rw [hx, hy]; ring
      · rw [hx, hy]; ring
      · exact absurd (x.trans y.symm) hg
  refine ⟨fun t x => ?_, fun k hk t => ?_⟩
  · rw [hamiltonOp_turned (h := spinOne b.l (H t)) (u := spinTwo b.l (U t)) unit (fun p q => ?_) (fun p q r s => ?_)]
    · refine ((S t x).const_mul (∏ i, paritySign (g ((x i).1 / 2)))).congr_deriv ?_
      unfold turnedWave
      ring
    · unfold spinOne
      dsimp only
      split_ifs
      · have hp : p.1 / 2 < b.l := by omega
        have hq : q.1 / 2 < b.l := by omega
        rw [(an t).1.get _ hp _ hq, (an' t).1.get _ hp _ hq, paritySign_star, mul_add, add_mul, mul_sum, mul_sum, mul_sum, sum_mul]
        congr 1
        · by_cases hg : g (p.1 / 2) = g (q.1 / 2)
          · rw [hg]
            linear_combination (-h.get [p.1 / 2, q.1 / 2]) * paritySign_sq (g (q.1 / 2))
          · rw [P.one _ hp _ hq hg]
            simp
        · refine sum_congr rfl fun k hk => ?_
          have f := flip k (mem_range.1 hk) _ hp _ hq
          have op := opposite t k (mem_range.1 hk)
          linear_combination (-(c t * e t k)) * f - paritySign (g (p.1 / 2)) * d.get [k, p.1 / 2, q.1 / 2] * paritySign (g (q.1 / 2)) * op
      · simp
    · dsimp only
      rw [(an t).2, (an' t).2]
      unfold spinTwo
      split_ifs
      · by_cases hg : g (p.1 / 2) + g (q.1 / 2) = g (r.1 / 2) + g (s.1 / 2)
        · have k := congrArg paritySign hg
          rw [paritySign_add, paritySign_add] at k
          rw [paritySign_star, paritySign_star]
          have k1 := paritySign_sq (g (r.1 / 2))
          have k2 := paritySign_sq (g (s.1 / 2))
          rw [k]
          generalize paritySign (g (r.1 / 2)) = x at *
          generalize paritySign (g (s.1 / 2)) = y at *
          linear_combination (-u.get [p.1 / 2, q.1 / 2, r.1 / 2, s.1 / 2]) * (y * y * k1 + k2)
        · rw [P.two _ (by omega) _ (by omega) _ (by omega) _ (by omega) hg]
          simp
      · simp
  · rw [meanOne_turned (a := fun p q => -1 * spinDipole b.l d k p q) unit (fun p q => ?_), meanOne_const, neg_one_mul]
    unfold spinDipole
    split_ifs
    · rw [paritySign_star, neg_one_mul]
      exact flip k hk _ (by omega) _ (by omega)
    · simp

/-! ## The two-dimensional dots -/

/-- **C152** The functions of the two-dimensional oscillator have angular momenta. -/
theorem C152_tdho (l num : ℕ) (radiusLength : ℝ) {omega mass : ℝ} (ho : 0 < omega) (hm : 0 < mass) (np : Module) :
    ∃ b h u d, tdho (getCoulombElementsRaw l) l num radiusLength omega mass np = .ok b ∧ b.h = some h ∧ b.u = some u ∧
      b.dipole = some d ∧ b.l = l ∧ b.dim = 2 ∧ Rotates (fun p => (getIndicesNm p).2) l h u d ∧
      HermMat l h ∧ HermU l u ∧ HermDip 2 l d := by
  obtain ⟨b, h, u, h1, hh, hu, hc⟩ := C100_tdho l num radiusLength omega mass np false false
  obtain ⟨u0, hu0, -⟩ := C45_table l
  obtain ⟨b'', d, h1'', hd, -, hz⟩ := C103_dipole u0 l num radiusLength hm ho np
  have h1' := h1
  rw [hu0] at h1'
  obtain rfl : b = b'' := by simpa using h1'.symm.trans h1''
  obtain ⟨b', h2, cons⟩ := C91_tdho l num radiusLength omega mass np
  obtain rfl : b = b' := by simpa using h1.symm.trans h2
  obtain ⟨x, hx, Hh⟩ := cons.h
  obtain rfl := Option.some.inj (hh.symm.trans hx)
  obtain ⟨x, hx, Hu, -⟩ := cons.u
  obtain rfl := Option.some.inj (hu.symm.trans hx)
  obtain ⟨x, hx, Hd⟩ := cons.dipole
  obtain rfl := Option.some.inj (hd.symm.trans hx)
  refine ⟨b, h, u, d, h1, hh, hu, hd, cons.wf.l_eq, cons.dim_eq, ⟨hc.one, hc.two, fun p hp q hq => (hz p hp q hq _ _ _ _ rfl rfl).1,
    fun p hp q hq e => ?_⟩, Hh, Hu, Hd⟩
  have k := (hz p hp q hq (getIndicesNm p).1 (getIndicesNm p).2 (getIndicesNm q).1 (getIndicesNm q).2 rfl rfl).2 e
  rw [k.1, k.2]

/-- **C152** The functions of the two-dimensional oscillator in a magnetic field have angular momenta. -/
theorem C152_magnetic {l num : ℕ} {radiusLength omega0 mass omegaC : ℝ} {np : Module} {b : BasisSet ℂ}
    {df : List Row} (h : oscB l num radiusLength omega0 mass omegaC np = .ok (b, df)) (hm : 0 < mass)
    (ho : omega0 ≠ 0 ∨ omegaC ≠ 0) :
    ∃ x u d, b.h = some x ∧ b.u = some u ∧ b.dipole = some d ∧ b.l = l ∧ b.dim = 2 ∧
      Rotates (fun p => (indicesNmB df p).2) l x u d ∧ HermMat l x ∧ HermU l u ∧ HermDip 2 l d := by
  obtain ⟨x, u, hh, hu, hc⟩ := C100_magnetic h
  obtain ⟨d, hd, -, hz⟩ := C103_magnetic h hm ho
  have cons := C91_magnetic h
  obtain ⟨y, hy, Hh⟩ := cons.h
  obtain rfl := Option.some.inj (hh.symm.trans hy)
  obtain ⟨y, hy, Hu, -⟩ := cons.u
  obtain rfl := Option.some.inj (hu.symm.trans hy)
  obtain ⟨y, hy, Hd⟩ := cons.dipole
  obtain rfl := Option.some.inj (hd.symm.trans hy)
  refine ⟨x, u, d, hh, hu, hd, cons.wf.l_eq, cons.dim_eq, ⟨hc.one, hc.two, fun p hp q hq => (hz p hp q hq _ _ _ _ rfl rfl).1,
    fun p hp q hq e => ?_⟩, Hh, Hu, Hd⟩
  have k := (hz p hp q hq (indicesNmB df p).1 (indicesNmB df p).2 (indicesNmB df q).1 (indicesNmB df q).2 rfl rfl).2 e
  rw [k.1, k.2]

/-! ## Examples -/

/-- A two-dimensional dot of six functions with one pair of electrons and a laser of the strength `2` whose polarisation rotates
with the frequency `3`. -/
noncomputable def rotatingWorld (b : BasisSet ℂ) : World ℂ ℝ :=
  { bases := [b]
    systems := [⟨.spatial, 0, some 0, 1, 6, 5, (0, 1), (1, 6), none⟩]
    ops := [laserField (.fn fun _ => .scalar .float64 2) (some (.fn fun t => .array (ofFn .float64 [2] fun i =>
      if i.getD 0 0 = 0 then ((Real.cos (3 * t) : ℝ) : ℂ) else (Real.sin (3 * t) : ℝ))))] }

/-- Two electrons in this dot: the energy minus three times the angular momentum does not change. -/
example : ∃ b, tdho (getCoulombElementsRaw 6) 6 5 4 1 1 0 = .ok b ∧
    ∃ w' : World ℂ ℝ, (setTimeEvolutionOperator 0 (some 0)).run (rotatingWorld b) = (.ok (), w') ∧
      (∃ H U, Answered w' 0 0 H U) ∧ ∀ H U, Answered w' 0 0 H U → ∀ Ψ : ℝ → Wave ℂ 2 (2 * b.l),
        Evolves (fun t => spinOne b.l (H t)) (fun t => spinTwo b.l (U t)) Ψ → ∀ t,
          meanEnergy (spinOne b.l (H t)) (spinTwo b.l (U t)) (Ψ t) - (3 : ℝ) * meanOne (angularMomentum (fun p => (getIndicesNm p).2) b.l) (Ψ t) =
            meanEnergy (spinOne b.l (H 0)) (spinTwo b.l (U 0)) (Ψ 0)
              - (3 : ℝ) * meanOne (angularMomentum (fun p => (getIndicesNm p).2) b.l) (Ψ 0) := by
  obtain ⟨b, h, u, d, hb, hh, hu, hd, hl, dim, R, Hh, Hu, Hd⟩ := C152_tdho 6 5 4 one_pos one_pos 0
  obtain ⟨b', hb', cons⟩ := C91_tdho 6 5 4 1 1 0
  obtain rfl : b = b' := by simpa using hb.symm.trans hb'
  have ok : SysOK (rotatingWorld b) 0 ⟨.spatial, 0, some 0, 1, 6, 5, (0, 1), (1, 6), none⟩ b :=
    ⟨rfl, rfl, cons.wf, cons.np_eq.symm, ⟨by decide, rfl, rfl, rfl⟩⟩
  obtain ⟨w', hw', -⟩ := C38_set (o := 0) ok rfl
  have LA : LaserAnswers w' 0 0 b (fun _ => 2)
      (fun t k => if k = 0 then ((Real.cos (3 * t) : ℝ) : ℂ) else (Real.sin (3 * t) : ℝ)) :=
    C36_partial ok (by rw [hd]; rfl) rfl rfl (.inl rfl) (fun _ => ⟨_, rfl⟩)
      ⟨_, .inl rfl, fun t => ⟨_, rfl, by rw [dim]; rfl, fun k hk => by
        rw [ofFn_get_of (show InRange [2] [k] from ⟨by omega, trivial⟩)]
        rfl⟩⟩ (.inl ⟨_, rfl⟩) hw'
  refine ⟨b, hb, w', hw', laser_answered LA hu, fun H U A Ψ S t => ?_⟩
  rw [← hl] at R Hh Hu Hd
  rw [← dim] at Hd
  refine C152_circular hh hu hd dim R Hh Hu Hd LA (F := 2) (G := 0) (fun t => ?_) A S 0 t
  rw [if_pos rfl, if_neg one_ne_zero]
  constructor <;> (push_cast; ring)

end QS.Props
