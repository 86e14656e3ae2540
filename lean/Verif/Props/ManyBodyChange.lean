import Verif.Lemmas.ManyBodyChange
import Verif.Props.SlaterCondon

/-!
# Property C107: `change_basis` and the Hamilton operator of `N` particles

`liftWave C Ψ` is the `N`-particle function `Ψ` of the new basis in terms of the old basis.
-/

namespace QS.Props

open Finset NDArray BasisSet PyM Demo Function

variable {K T : Type} [PyScalar K]

theorem matrix_inverse {l n : ℕ} {C Ct : NDArray K}
    (inv : ∀ p < n, ∀ q < n, ∑ a ∈ range l, Ct.get [p, a] * C.get [a, q] = kd p q) :
    Matrix.of (arrayMat n l Ct) * Matrix.of (arrayMat l n C) = 1 := by
  ext p q
  rw [Matrix.mul_apply, Matrix.one_apply]
  have := inv p p.2 q q.2
  rw [Finset.sum_range] at this
  simp only [Matrix.of_apply, arrayMat, this, kd, Fin.ext_iff]

theorem oneBody_matrix {l n : ℕ} {C Ct H H' : NDArray K} (h : IsOneBody C Ct l n H H') :
    (fun p q => (Matrix.of (arrayMat n l Ct) * Matrix.of (arrayOne l H) * Matrix.of (arrayMat l n C)) p q) =
      arrayOne n H' := by
  funext p q
  rw [arrayOne, h.2 p p.2 q q.2, Finset.sum_range, Matrix.mul_apply]
  simp only [Finset.sum_range, Matrix.mul_apply, Matrix.of_apply, arrayMat, arrayOne, sum_mul]
  rw [sum_comm]

theorem twoBody_matrix {l n : ℕ} {C Ct U U' : NDArray K} (h : IsTwoBody C Ct l n U U') :
    (fun p q r s => ∑ a, ∑ b, ∑ c, ∑ d, Matrix.of (arrayMat n l Ct) p a * Matrix.of (arrayMat n l Ct) q b *
      arrayTwo l U a b c d * Matrix.of (arrayMat l n C) c r * Matrix.of (arrayMat l n C) d s) = arrayTwo n U' := by
  funext p q r s
  rw [arrayTwo, h.2 p p.2 q q.2 r r.2 s s.2]
  simp only [Finset.sum_range, Matrix.of_apply, arrayMat, arrayTwo]

theorem hamilton_changed {N l n : ℕ} {C Ct H H' U U' : NDArray K} (hh : IsOneBody C Ct l n H H')
    (hu : IsTwoBody C Ct l n U U')
    (inv : ∀ p < n, ∀ q < n, ∑ a ∈ range l, Ct.get [p, a] * C.get [a, q] = kd p q) (Ψ : Wave K N n) :
    liftWave (arrayMat n l Ct) (hamiltonOp (arrayOne l H) (arrayTwo l U) (liftWave (arrayMat l n C) Ψ)) =
      hamiltonOp (arrayOne n H') (arrayTwo n U') Ψ := by
  rw [liftWave_eq, liftWave_eq, hamiltonOp_sandwich (matrix_inverse inv), oneBody_matrix hh, twoBody_matrix hu]

theorem changed_elements {b b' : BasisSet K} {l n : ℕ} {C : NDArray K} {Ct : Option (NDArray K)} {v : Unit}
    (hb : WellFormed b l) (run : (changeBasis C Ct).run b = (.ok v, b')) (hC : C.shape = [l, n])
    {H U H' U' : NDArray K} (hh : b.h = some H) (hu : b.u = some U) (hh' : b'.h = some H') (hu' : b'.u = some U') :
    IsOneBody C (Ct.getD C.conj.T) l n H H' ∧ IsTwoBody C (Ct.getD C.conj.T) l n U U' := by
  obtain ⟨m, hm, -, -, rfl⟩ := changeBasis_inv hb run
  obtain rfl : n = m := by rw [hC] at hm; simpa using hm
  simp only [changed, hh, hu, Option.map_some, Option.some.injEq] at hh' hu'
  subst hh' hu'
  exact ⟨⟨rfl, fun p hp q hq => oneBodyArr_get hp hq⟩,
    ⟨rfl, fun p hp q hq r hr t ht => twoBodyArr_get hp hq hr ht⟩⟩

/-- **C107** After a successful `change_basis` with `C_tilde C = 1` (also to fewer functions) the new elements
make, for every number of particles, the Hamilton operator projected on the products of new functions. -/
theorem C107_hamiltonian {b b' : BasisSet K} {l n : ℕ} {C : NDArray K} {Ct : Option (NDArray K)} {v : Unit}
    (hb : WellFormed b l) (run : (changeBasis C Ct).run b = (.ok v, b')) (hC : C.shape = [l, n])
    (inv : ∀ p < n, ∀ q < n, ∑ a ∈ range l, (Ct.getD C.conj.T).get [p, a] * C.get [a, q] = kd p q)
    {H U H' U' : NDArray K} (hh : b.h = some H) (hu : b.u = some U) (hh' : b'.h = some H') (hu' : b'.u = some U')
    (N : ℕ) (Ψ : Wave K N n) :
    liftWave (arrayMat n l (Ct.getD C.conj.T))
        (hamiltonOp (arrayOne l H) (arrayTwo l U) (liftWave (arrayMat l n C) Ψ)) =
      hamiltonOp (arrayOne n H') (arrayTwo n U') Ψ ∧
    liftWave (arrayMat n l (Ct.getD C.conj.T)) (liftWave (arrayMat l n C) Ψ) = Ψ ∧
    (Antisymmetric Ψ → Antisymmetric (liftWave (arrayMat l n C) Ψ)) := by
  obtain ⟨h1, h2⟩ := changed_elements hb run hC hh hu hh' hu'
  refine ⟨hamilton_changed h1 h2 inv Ψ, ?_, fun h => prodOp_antisymmetric _ h⟩
  rw [liftWave_eq, liftWave_eq, prodOp_inverse (matrix_inverse inv)]

theorem arrayMat_conjT {l n : ℕ} {C : NDArray K} (hC : C.shape = [l, n]) :
    Matrix.of (arrayMat n l C.conj.T) = (Matrix.of (arrayMat l n C)).conjTranspose := by
  ext p a
  simp only [Matrix.of_apply, Matrix.conjTranspose_apply, arrayMat, conjT_get2 C hC]

/-- **C107** With orthonormal columns and no `C_tilde`: inner products and matrix elements of the Hamilton operator
between all `N`-particle functions of the new basis are those between the same functions in the old basis. -/
theorem C107_matrix_elements {b b' : BasisSet K} {l n : ℕ} {C : NDArray K} {v : Unit}
    (hb : WellFormed b l) (run : (changeBasis C none).run b = (.ok v, b')) (hC : C.shape = [l, n])
    (uni : ∀ p < n, ∀ q < n, ∑ a ∈ range l, star (C.get [a, p]) * C.get [a, q] = kd p q)
    {H U H' U' : NDArray K} (hh : b.h = some H) (hu : b.u = some U) (hh' : b'.h = some H') (hu' : b'.u = some U')
    (N : ℕ) (Φ Ψ : Wave K N n) :
    waveInner (liftWave (arrayMat l n C) Φ) (hamiltonOp (arrayOne l H) (arrayTwo l U) (liftWave (arrayMat l n C) Ψ)) =
      waveInner Φ (hamiltonOp (arrayOne n H') (arrayTwo n U') Ψ) ∧
    waveInner (liftWave (arrayMat l n C) Φ) (liftWave (arrayMat l n C) Ψ) = waveInner Φ Ψ := by
  have inv : ∀ p < n, ∀ q < n, ∑ a ∈ range l, (Option.getD none C.conj.T).get [p, a] * C.get [a, q] = kd p q := by
    intro p hp q hq
    rw [← uni p hp q hq]
    exact sum_congr rfl fun a _ => by rw [Option.getD_none, conjT_get2 C hC]
  obtain ⟨h1, h2, -⟩ := C107_hamiltonian hb run hC inv hh hu hh' hu' N Ψ
  rw [Option.getD_none] at h1 h2
  constructor
  · rw [← h1, liftWave_eq _ Φ, waveInner_prodOp, ← arrayMat_conjT hC]
    rfl
  · conv_rhs => rw [← h2]
    rw [liftWave_eq _ Φ, waveInner_prodOp, ← arrayMat_conjT hC]
    rfl

/-- **C107** With a square `C` the stationary states of `N` particles in both bases are the same, with the same
energies. -/
theorem C107_spectrum {b b' : BasisSet K} {l : ℕ} {C : NDArray K} {Ct : Option (NDArray K)} {v : Unit}
    (hb : WellFormed b l) (run : (changeBasis C Ct).run b = (.ok v, b')) (hC : C.shape = [l, l])
    (inv : ∀ p < l, ∀ q < l, ∑ a ∈ range l, (Ct.getD C.conj.T).get [p, a] * C.get [a, q] = kd p q)
    {H U H' U' : NDArray K} (hh : b.h = some H) (hu : b.u = some U) (hh' : b'.h = some H') (hu' : b'.u = some U')
    (N : ℕ) (E : K) :
    Function.Bijective (liftWave (N := N) (arrayMat l l C)) ∧ ∀ Ψ : Wave K N l,
      (Antisymmetric (liftWave (arrayMat l l C) Ψ) ↔ Antisymmetric Ψ) ∧
      ((hamiltonOp (arrayOne l H') (arrayTwo l U') Ψ = fun x => E * Ψ x) ↔
        hamiltonOp (arrayOne l H) (arrayTwo l U) (liftWave (arrayMat l l C) Ψ) =
          fun x => E * liftWave (arrayMat l l C) Ψ x) := by
  have i1 := matrix_inverse inv
  have i2 := mul_eq_one_comm.1 i1
  have back : ∀ Ψ : Wave K N l, liftWave (arrayMat l l C) (liftWave (arrayMat l l (Ct.getD C.conj.T)) Ψ) = Ψ := by
    intro Ψ
    rw [liftWave_eq, liftWave_eq, prodOp_inverse i2]
  have forth : ∀ Ψ : Wave K N l, liftWave (arrayMat l l (Ct.getD C.conj.T)) (liftWave (arrayMat l l C) Ψ) = Ψ := by
    intro Ψ
    rw [liftWave_eq, liftWave_eq, prodOp_inverse i1]
  refine ⟨⟨fun Φ Ψ h => ?_, fun Ψ => ⟨_, back Ψ⟩⟩, fun Ψ => ⟨⟨fun h => ?_, fun h => prodOp_antisymmetric _ h⟩, ?_⟩⟩
  · rw [← forth Φ, ← forth Ψ, h]
  · rw [← forth Ψ]
    exact prodOp_antisymmetric _ h
  · obtain ⟨h1, -, -⟩ := C107_hamiltonian hb run hC inv hh hu hh' hu' N Ψ
    constructor
    · intro h
      rw [h] at h1
      have := congrArg (liftWave (arrayMat l l C)) h1
      rw [back] at this
      rw [this, liftWave_eq, prodOp_smul]
      rfl
    · intro h
      rw [h] at h1
      rw [← h1, liftWave_eq _ (fun x => _), prodOp_smul]
      funext x
      show E * liftWave (arrayMat l l (Ct.getD C.conj.T)) (liftWave (arrayMat l l C) Ψ) x = _
      rw [forth]

/-- **C107** Fewer functions never lower the energy: a lower bound of the energy of `N` particles in the old basis
is one in the new basis. -/
theorem C107_truncation {b b' : BasisSet ℂ} {l n : ℕ} {C : NDArray ℂ} {v : Unit}
    (hb : WellFormed b l) (run : (changeBasis C none).run b = (.ok v, b')) (hC : C.shape = [l, n])
    (uni : ∀ p < n, ∀ q < n, ∑ a ∈ range l, star (C.get [a, p]) * C.get [a, q] = kd p q)
    {H U H' U' : NDArray ℂ} (hh : b.h = some H) (hu : b.u = some U) (hh' : b'.h = some H') (hu' : b'.u = some U')
    {N : ℕ} {E : ℝ} (hE : ∀ Ψ : Wave ℂ N l, Antisymmetric Ψ →
      E * (waveInner Ψ Ψ).re ≤ (waveInner Ψ (hamiltonOp (arrayOne l H) (arrayTwo l U) Ψ)).re)
    (Ψ : Wave ℂ N n) (hΨ : Antisymmetric Ψ) :
    E * (waveInner Ψ Ψ).re ≤ (waveInner Ψ (hamiltonOp (arrayOne n H') (arrayTwo n U') Ψ)).re := by
  obtain ⟨h1, h2⟩ := C107_matrix_elements hb run hC uni hh hu hh' hu' N Ψ Ψ
  rw [← h1, ← h2]
  exact hE _ (prodOp_antisymmetric _ hΨ)

/-! ## The reference energy as a function of the coefficients -/

theorem orbitalDet_eq {N l n : ℕ} (C : Fin l → Fin n → K) (hn : N ≤ n) :
    orbitalDet C hn = liftWave C (slater (firstOrbitals hn)) := by
  funext x
  rw [liftWave_eq, prodOp_slater]
  rfl

theorem twoBody_anti {l n : ℕ} {C Ct U U' V V' : NDArray K} (hU : IsTwoBody C Ct l n U U')
    (hV : IsTwoBody C Ct l n V V') (h : IsAntiSymmetrised l U V) : IsAntiSymmetrised n U' V' := by
  refine ⟨hV.1, fun p hp q hq r hr s hs => ?_⟩
  rw [hV.2 p hp q hq r hr s hs, hU.2 p hp q hq r hr s hs, hU.2 p hp q hq s hs r hr]
  simp only [← sum_sub_distrib]
  have e : ∀ a ∈ range l, ∀ b ∈ range l, ∑ c ∈ range l, ∑ d ∈ range l,
      Ct.get [p, a] * Ct.get [q, b] * V.get [a, b, c, d] * C.get [c, r] * C.get [d, s] =
      ∑ c ∈ range l, ∑ d ∈ range l,
        Ct.get [p, a] * Ct.get [q, b] * U.get [a, b, c, d] * C.get [c, r] * C.get [d, s] -
      ∑ c ∈ range l, ∑ d ∈ range l,
        Ct.get [p, a] * Ct.get [q, b] * U.get [a, b, c, d] * C.get [c, s] * C.get [d, r] := by
    intro a ha b hb
    rw [sum_comm (s := range l) (t := range l)
      (f := fun c d => Ct.get [p, a] * Ct.get [q, b] * U.get [a, b, c, d] * C.get [c, s] * C.get [d, r])]
    simp only [← sum_sub_distrib]
    refine sum_congr rfl fun c hc => sum_congr rfl fun d hd => ?_
    rw [h.2 a (mem_range.1 ha) b (mem_range.1 hb) c (mem_range.1 hc) d (mem_range.1 hd)]
    ring
  refine sum_congr rfl fun a ha => sum_congr rfl fun b hb => ?_
  rw [e a ha b hb]
  simp only [← sum_sub_distrib]

/-- **C107** The reference energy of a general system after `change_basis` with orthonormal columns `C` is the
expectation value of the *old* Hamilton operator in the determinant of the first `n` columns. -/
theorem C107_energy {w w' : World K T} {s m : ℕ} {x : Sys} {b : BasisSet K} {C : NDArray K} {v : Unit}
    (ok : SysOK w s x b) (hk : x.kind = .general) (run : (World.changeBasis s C none).run w = (.ok v, w'))
    (hC : C.shape = [x.l, m])
    (uni : ∀ p < m, ∀ q < m, ∑ a ∈ range x.l, star (C.get [a, p]) * C.get [a, q] = kd p q)
    {H U V : NDArray K} (hh : b.h = some H) (hu : b.u = some V) (hU : IsAntiSymmetrised x.l U V) (hn : x.n ≤ m) :
    ∃ r, (World.referenceEnergy s).run w' = (.ok r, w') ∧
      waveInner (orbitalDet (arrayMat x.l m C) hn)
          (hamiltonOp (arrayOne x.l H) (arrayTwo x.l U) (orbitalDet (arrayMat x.l m C) hn)) =
        r.get [] * waveInner (orbitalDet (arrayMat x.l m C) hn) (orbitalDet (arrayMat x.l m C) hn) ∧
      waveInner (orbitalDet (arrayMat x.l m C) hn) (orbitalDet (arrayMat x.l m C) hn) = (x.n.factorial : K) := by
  obtain ⟨n, hC', hCt, hn', rfl⟩ := World.changeBasis_ok ok run
  obtain rfl : m = n := by rw [hC] at hC'; simpa using hC'
  have ok' := World.withChanged_ok ok (changed_wellFormed (C := C) (Ct := Option.getD none C.conj.T)
    (n := m) ok.wf) rfl hn'
  have hh' : (changed b C (Option.getD none C.conj.T) x.l m).h =
      some (oneBodyArr H C (Option.getD none C.conj.T) m x.l x.l m) := by simp [changed, hh]
  have hu' : (changed b C (Option.getD none C.conj.T) x.l m).u =
      some (twoBodyArr V C (Option.getD none C.conj.T) x.l m m) := by simp [changed, hu]
  have e1 : IsOneBody C C.conj.T x.l m H (oneBodyArr H C C.conj.T m x.l x.l m) :=
    ⟨rfl, fun p hp q hq => oneBodyArr_get hp hq⟩
  have e2 : ∀ W : NDArray K, IsTwoBody C C.conj.T x.l m W (twoBodyArr W C C.conj.T x.l m m) := fun W =>
    ⟨rfl, fun p hp q hq r hr t ht => twoBodyArr_get hp hq hr ht⟩
  have inv : ∀ p < m, ∀ q < m, ∑ a ∈ range x.l, C.conj.T.get [p, a] * C.get [a, q] = kd p q := by
    intro p hp q hq
    rw [← uni p hp q hq]
    exact sum_congr rfl fun a _ => by rw [conjT_get2 C hC]
  have norm : waveInner (orbitalDet (arrayMat x.l m C) hn) (orbitalDet (arrayMat x.l m C) hn) = (x.n.factorial : K) := by
    rw [orbitalDet_eq, liftWave_eq, waveInner_prodOp, ← arrayMat_conjT hC, prodOp_inverse (matrix_inverse inv)]
    exact (C106_determinants (firstOrbitals_injective hn)).2.2.1
  obtain ⟨r, h1, -, h3⟩ := World.referenceEnergy_run ok' hh' hu'
  refine ⟨r, h1, ?_, norm⟩
  have key := general_expectation hn (H := oneBodyArr H C C.conj.T m x.l x.l m)
    (u := arrayTwo m (twoBodyArr U C C.conj.T x.l m m)) (U' := twoBodyArr V C C.conj.T x.l m m)
    (fun p q r s => (twoBody_anti (e2 U) (e2 V) hU).2 p p.2 q q.2 r r.2 s s.2)
  rw [← hamilton_changed e1 (e2 U) inv, liftWave_eq (arrayMat m x.l C.conj.T), arrayMat_conjT hC,
    ← waveInner_prodOp, ← liftWave_eq, ← orbitalDet_eq] at key
  rw [key, norm, h3, mul_comm]
  show energyGeneral x.n _ _ * _ = energyOf x.kind x.n _ _ * _
  rw [hk]
  rfl

/-! ## Spatial systems -/

/-- The array of coefficients of spin orbitals. -/
def doubledMatArr (l n : ℕ) (C : NDArray K) : NDArray K :=
  ofFn .complex128 [2 * l, 2 * n] fun i => if i[0]! % 2 = i[1]! % 2 then C.get [i[0]! / 2, i[1]! / 2] else 0

/-- The array of spin-doubled plain two-body elements. -/
def doubledTwoArr (l : ℕ) (U : NDArray K) : NDArray K :=
  ofFn .complex128 [2 * l, 2 * l, 2 * l, 2 * l] fun i =>
    if i[0]! % 2 = i[2]! % 2 ∧ i[1]! % 2 = i[3]! % 2 then
      U.get [i[0]! / 2, i[1]! / 2, i[2]! / 2, i[3]! / 2] else 0

theorem doubledMatArr_get {l n : ℕ} {C : NDArray K} {p q a b : ℕ} (hp : p < l) (hq : q < n) (ha : a < 2) (hb : b < 2) :
    (doubledMatArr l n C).get [2 * p + a, 2 * q + b] = if a = b then C.get [p, q] else 0 := by
  rw [doubledMatArr, ofFn_get_of (by simp; omega)]
  show (if (2 * p + a) % 2 = (2 * q + b) % 2 then C.get [(2 * p + a) / 2, (2 * q + b) / 2] else 0) = _
  simp only [pair_div ha, pair_div hb]

theorem doubledTwoArr_get {l : ℕ} {U : NDArray K} {p q r s a b c d : ℕ} (hp : p < l) (hq : q < l) (hr : r < l)
    (hs : s < l) (ha : a < 2) (hb : b < 2) (hc : c < 2) (hd : d < 2) :
    (doubledTwoArr l U).get [2 * p + a, 2 * q + b, 2 * r + c, 2 * s + d] =
      if a = c ∧ b = d then U.get [p, q, r, s] else 0 := by
  rw [doubledTwoArr, ofFn_get_of (by simp; omega)]
  show (if (2 * p + a) % 2 = (2 * r + c) % 2 ∧ (2 * q + b) % 2 = (2 * s + d) % 2 then
    U.get [(2 * p + a) / 2, (2 * q + b) / 2, (2 * r + c) / 2, (2 * s + d) / 2] else 0) = _
  simp only [pair_div ha, pair_div hb, pair_div hc, pair_div hd]

theorem arrayMat_doubled (l n : ℕ) (C : NDArray K) : arrayMat (2 * l) (2 * n) (doubledMatArr l n C) = spinMat l n C := by
  funext a p
  rw [arrayMat, doubledMatArr, ofFn_get_of (by simp)]
  rfl

theorem arrayTwo_doubled (l : ℕ) (U : NDArray K) : arrayTwo (2 * l) (doubledTwoArr l U) = spinTwo l U := by
  funext p q r s
  rw [arrayTwo, doubledTwoArr, ofFn_get_of (by simp)]
  rfl

theorem doubledMatArr_conjT {l n : ℕ} {C : NDArray K} {p a σ τ : ℕ} (hp : p < n) (ha : a < l) (hσ : σ < 2) (hτ : τ < 2)
    (hC : C.shape = [l, n]) :
    (doubledMatArr l n C).conj.T.get [2 * p + σ, 2 * a + τ] = if σ = τ then C.conj.T.get [p, a] else 0 := by
  rw [conjT_get2 _ (m := 2 * l) (n := 2 * n) rfl, doubledMatArr_get ha hp hτ hσ, conjT_get2 C hC]
  by_cases h : σ = τ
  · simp [h]
  · simp [h, Ne.symm h]

/-- A sum over spin orbitals of one spin. -/
theorem spin_sum {l : ℕ} (f : ℕ → K) {σ : ℕ} (hσ : σ < 2) {g : ℕ → K}
    (hg : ∀ a < l, ∀ τ < 2, g (2 * a + τ) = if σ = τ then f a else 0) :
    ∑ a ∈ range (2 * l), g a = ∑ a ∈ range l, f a := by
  rw [sum_range_two_mul]
  refine sum_congr rfl fun a ha => ?_
  rw [sum_congr rfl fun τ hτ => hg a (mem_range.1 ha) τ (mem_range.1 hτ), sum_ite_eq, if_pos (mem_range.2 hσ)]

theorem pair_split {p n : ℕ} (hp : p < 2 * n) : ∃ P σ, P < n ∧ σ < 2 ∧ p = 2 * P + σ :=
  ⟨p / 2, p % 2, by omega, by omega, by omega⟩

theorem doubled_inverse {l n : ℕ} {C : NDArray K} (hC : C.shape = [l, n])
    (inv : ∀ p < n, ∀ q < n, ∑ a ∈ range l, C.conj.T.get [p, a] * C.get [a, q] = kd p q) (p : ℕ) (hp : p < 2 * n) (q : ℕ)
    (hq : q < 2 * n) :
    ∑ a ∈ range (2 * l), (doubledMatArr l n C).conj.T.get [p, a] * (doubledMatArr l n C).get [a, q] = kd p q := by
  obtain ⟨P, σ, hP, hσ, rfl⟩ := pair_split hp
  obtain ⟨Q, τ, hQ, hτ, rfl⟩ := pair_split hq
  rw [spin_sum (fun a => C.conj.T.get [P, a] * if σ = τ then C.get [a, Q] else 0) hσ]
  · by_cases h : σ = τ
    · simp only [if_pos h, inv P hP Q hQ, kd]
      refine if_congr ?_ rfl rfl
      omega
    · simp only [if_neg h, mul_zero, sum_const_zero, kd]
      rw [if_neg (by omega)]
  · intro a ha ρ hρ
    rw [doubledMatArr_conjT hP ha hσ hρ hC, doubledMatArr_get ha hQ hρ hτ]
    by_cases h : σ = ρ
    · simp [h]
    · simp [h]

theorem doubled_oneBody {l n : ℕ} {C H H' : NDArray K} (hC : C.shape = [l, n]) (h : IsOneBody C C.conj.T l n H H') :
    IsOneBody (doubledMatArr l n C) (doubledMatArr l n C).conj.T (2 * l) (2 * n) (doubledOneArr l H)
      (doubledOneArr n H') := by
  refine ⟨rfl, fun p hp q hq => ?_⟩
  obtain ⟨P, σ, hP, hσ, rfl⟩ := pair_split hp
  obtain ⟨Q, τ, hQ, hτ, rfl⟩ := pair_split hq
  rw [(doubledOneArr_is n H').2 P hP Q hQ σ hσ τ hτ, h.2 P hP Q hQ]
  symm
  rw [spin_sum (fun a => ∑ b ∈ range l, if σ = τ then C.conj.T.get [P, a] * H.get [a, b] * C.get [b, Q] else 0) hσ]
  · by_cases e : σ = τ <;> simp [e]
  · intro a ha ρ hρ
    by_cases e : σ = ρ
    · rw [if_pos e, spin_sum
        (fun b => if σ = τ then C.conj.T.get [P, a] * H.get [a, b] * C.get [b, Q] else 0) hρ]
      intro b hb κ hκ
      rw [doubledMatArr_conjT hP ha hσ hρ hC, (doubledOneArr_is l H).2 a ha b hb ρ hρ κ hκ,
        doubledMatArr_get hb hQ hκ hτ, if_pos e]
      by_cases e2 : ρ = κ
      · subst e e2; simp
      · simp [e2]
    · rw [if_neg e]
      refine sum_eq_zero fun b _ => ?_
      rw [doubledMatArr_conjT hP ha hσ hρ hC, if_neg e, zero_mul, zero_mul]

theorem doubled_twoBody {l n : ℕ} {C U U' : NDArray K} (hC : C.shape = [l, n]) (h : IsTwoBody C C.conj.T l n U U') :
    IsTwoBody (doubledMatArr l n C) (doubledMatArr l n C).conj.T (2 * l) (2 * n) (doubledTwoArr l U)
      (doubledTwoArr n U') := by
  refine ⟨rfl, fun p hp q hq r hr s hs => ?_⟩
  obtain ⟨P, σ, hP, hσ, rfl⟩ := pair_split hp
  obtain ⟨Q, τ, hQ, hτ, rfl⟩ := pair_split hq
  obtain ⟨R, κ, hR, hκ, rfl⟩ := pair_split hr
  obtain ⟨S, ρ, hS, hρ, rfl⟩ := pair_split hs
  rw [doubledTwoArr_get hP hQ hR hS hσ hτ hκ hρ, h.2 P hP Q hQ R hR S hS]
  symm
  let f : ℕ → ℕ → ℕ → ℕ → K := fun a b c d => if σ = κ ∧ τ = ρ then
    C.conj.T.get [P, a] * C.conj.T.get [Q, b] * U.get [a, b, c, d] * C.get [c, R] * C.get [d, S] else 0
  rw [spin_sum (fun a => ∑ b ∈ range l, ∑ c ∈ range l, ∑ d ∈ range l, f a b c d) hσ]
  · by_cases e : σ = κ ∧ τ = ρ
    · simp only [f, if_pos e]
    · simp only [f, if_neg e, sum_const_zero]
  intro a ha σ' hσ'
  by_cases e1 : σ = σ'
  swap
  · rw [if_neg e1]
    refine sum_eq_zero fun b _ => sum_eq_zero fun c _ => sum_eq_zero fun d _ => ?_
    rw [doubledMatArr_conjT hP ha hσ hσ' hC, if_neg e1]
    simp
  subst e1
  rw [if_pos rfl, spin_sum (fun b => ∑ c ∈ range l, ∑ d ∈ range l, f a b c d) hτ]
  intro b hb τ' hτ'
  by_cases e2 : τ = τ'
  swap
  · rw [if_neg e2]
    refine sum_eq_zero fun c _ => sum_eq_zero fun d _ => ?_
    rw [doubledMatArr_conjT hQ hb hτ hτ' hC, if_neg e2]
    simp
  subst e2
  rw [if_pos rfl, spin_sum (fun c => ∑ d ∈ range l, f a b c d) hσ]
  intro c hc κ' hκ'
  by_cases e3 : σ = κ'
  swap
  · rw [if_neg e3]
    refine sum_eq_zero fun d hd => ?_
    obtain ⟨D, ρ', hD, hρ', rfl⟩ := pair_split (mem_range.1 hd)
    rw [doubledTwoArr_get ha hb hc hD hσ hτ hκ' hρ', if_neg fun h => e3 h.1]
    simp
  subst e3
  rw [if_pos rfl, spin_sum (fun d => f a b c d) hτ]
  intro d hd ρ' hρ'
  rw [doubledTwoArr_get ha hb hc hd hσ hτ hσ hρ', doubledMatArr_conjT hP ha hσ hσ hC,
    doubledMatArr_conjT hQ hb hτ hτ hC, doubledMatArr_get hc hR hσ hκ, doubledMatArr_get hd hS hρ' hρ, if_pos rfl,
    if_pos rfl]
  by_cases e4 : τ = ρ'
  · subst e4
    by_cases e5 : σ = κ <;> by_cases e6 : τ = ρ <;> simp [f, e5, e6]
  · simp [e4]

/-- **C107** The reference energy of a spatial system after `change_basis` with orthonormal columns `C` is the
expectation value of the *old* Hamilton operator in the determinant with two particles of opposite spin in each of
the first `n` columns. -/
theorem C107_spatial_energy {w w' : World K T} {s m : ℕ} {x : Sys} {b : BasisSet K} {C : NDArray K} {v : Unit}
    (ok : SysOK w s x b) (hk : x.kind = .spatial) (run : (World.changeBasis s C none).run w = (.ok v, w'))
    (hC : C.shape = [x.l, m])
    (uni : ∀ p < m, ∀ q < m, ∑ a ∈ range x.l, star (C.get [a, p]) * C.get [a, q] = kd p q)
    {H U : NDArray K} (hh : b.h = some H) (hu : b.u = some U) (hn : 2 * x.n ≤ 2 * m) :
    ∃ r, (World.referenceEnergy s).run w' = (.ok r, w') ∧
      waveInner (orbitalDet (spinMat x.l m C) hn)
          (hamiltonOp (spinOne x.l H) (spinTwo x.l U) (orbitalDet (spinMat x.l m C) hn)) =
        r.get [] * waveInner (orbitalDet (spinMat x.l m C) hn) (orbitalDet (spinMat x.l m C) hn) ∧
      waveInner (orbitalDet (spinMat x.l m C) hn) (orbitalDet (spinMat x.l m C) hn) = ((2 * x.n).factorial : K) := by
  obtain ⟨n, hC', hCt, hn', rfl⟩ := World.changeBasis_ok ok run
  obtain rfl : m = n := by rw [hC] at hC'; simpa using hC'
  have ok' := World.withChanged_ok ok (changed_wellFormed (C := C) (Ct := Option.getD none C.conj.T)
    (n := m) ok.wf) rfl hn'
  have hh' : (changed b C (Option.getD none C.conj.T) x.l m).h =
      some (oneBodyArr H C (Option.getD none C.conj.T) m x.l x.l m) := by simp [changed, hh]
  have hu' : (changed b C (Option.getD none C.conj.T) x.l m).u =
      some (twoBodyArr U C (Option.getD none C.conj.T) x.l m m) := by simp [changed, hu]
  have e1 : IsOneBody C C.conj.T x.l m H (oneBodyArr H C C.conj.T m x.l x.l m) :=
    ⟨rfl, fun p hp q hq => oneBodyArr_get hp hq⟩
  have e2 : IsTwoBody C C.conj.T x.l m U (twoBodyArr U C C.conj.T x.l m m) :=
    ⟨rfl, fun p hp q hq r hr t ht => twoBodyArr_get hp hq hr ht⟩
  have inv : ∀ p < m, ∀ q < m, ∑ a ∈ range x.l, C.conj.T.get [p, a] * C.get [a, q] = kd p q := by
    intro p hp q hq
    rw [← uni p hp q hq]
    exact sum_congr rfl fun a _ => by rw [conjT_get2 C hC]
  have sh : (doubledMatArr x.l m C).shape = [2 * x.l, 2 * m] := rfl
  have norm : waveInner (orbitalDet (spinMat x.l m C) hn) (orbitalDet (spinMat x.l m C) hn) =
      ((2 * x.n).factorial : K) := by
    rw [← arrayMat_doubled, orbitalDet_eq, liftWave_eq, waveInner_prodOp, ← arrayMat_conjT sh,
      prodOp_inverse (matrix_inverse (doubled_inverse hC inv))]
    exact (C106_determinants (firstOrbitals_injective hn)).2.2.1
  obtain ⟨r, h1, h2, -⟩ := C106_spatial ok' (show x.kind = .spatial from hk) hh' hu' hn
  refine ⟨r, h1, ?_, norm⟩
  have key : waveInner (slater (firstOrbitals hn)) (hamiltonOp
      (arrayOne (2 * m) (doubledOneArr m (oneBodyArr H C C.conj.T m x.l x.l m)))
      (arrayTwo (2 * m) (doubledTwoArr m (twoBodyArr U C C.conj.T x.l m m))) (slater (firstOrbitals hn))) =
      r.get [] * waveInner (slater (K := K) (firstOrbitals hn)) (slater (firstOrbitals hn)) := by
    rw [arrayOne_doubled (doubledOneArr_is _ _), arrayTwo_doubled]
    exact h2
  rw [← hamilton_changed (doubled_oneBody hC e1) (doubled_twoBody hC e2) (doubled_inverse hC inv),
    liftWave_eq (arrayMat (2 * m) (2 * x.l) (doubledMatArr x.l m C).conj.T), arrayMat_conjT sh,
    ← waveInner_prodOp, ← liftWave_eq, ← orbitalDet_eq, arrayMat_doubled, arrayOne_doubled (doubledOneArr_is _ _),
    arrayTwo_doubled, (C106_determinants (firstOrbitals_injective hn)).2.2.1] at key
  rw [key, norm]

/-! ## Examples -/

/-- One orthonormal column. -/
def column : NDArray GaussQ := mat .complex128 [[⟨3 / 5, 0⟩], [⟨0, 4 / 5⟩]]

/-- A rotation. -/
def rotation : NDArray GaussQ := mat .complex128 [[⟨3 / 5, 0⟩, ⟨4 / 5, 0⟩], [⟨0, 4 / 5⟩, ⟨0, -3 / 5⟩]]

theorem column_uni : ∀ p < 1, ∀ q < 1, ∑ a ∈ range 2, star (column.get [a, p]) * column.get [a, q] = kd p q := by
  unfold kd; decide +kernel

theorem rotation_uni : ∀ p < 2, ∀ q < 2, ∑ a ∈ range 2, star (rotation.get [a, p]) * rotation.get [a, q] = kd p q := by
  unfold kd; decide +kernel

/-- The hypotheses of `C107_hamiltonian`, `C107_matrix_elements` and `C107_spectrum` are met. -/
example : ∃ b', (changeBasis rotation none).run Demo.basis = (.ok (), b') ∧
    (∀ p < 2, ∀ q < 2, ∑ a ∈ range 2, (Option.getD none rotation.conj.T).get [p, a] * rotation.get [a, q] = kd p q) ∧
    b'.h.isSome ∧ b'.u.isSome := by
  refine ⟨_, changeBasis_run (n := 2) basis_wf (basis_noSpin.spinShaped 2) rfl rfl, ?_, rfl, rfl⟩
  unfold kd; decide +kernel

/-- Two particles in one rotated spatial orbital: the energy of the determinant of spin orbitals in the old basis. -/
example : ∃ w' r, (World.changeBasis 0 column none).run world = (.ok (), w') ∧
    (World.referenceEnergy 0).run w' = (.ok r, w') ∧
    waveInner (orbitalDet (spinMat 2 1 column) (show 2 * 1 ≤ 2 * 1 by decide))
        (hamiltonOp (spinOne 2 Demo.h) (spinTwo 2 Demo.u) (orbitalDet (spinMat 2 1 column) (show 2 * 1 ≤ 2 * 1 by decide))) =
      r.get [] * waveInner (orbitalDet (spinMat 2 1 column) (show 2 * 1 ≤ 2 * 1 by decide))
        (orbitalDet (spinMat 2 1 column) (show 2 * 1 ≤ 2 * 1 by decide)) := by
  have run := World.changeBasis_sys_run (n := 1) (C := column) (Ct := none) world_ok (basis_noSpin.spinShaped 2) rfl rfl
    (by decide)
  obtain ⟨r, h1, h2, -⟩ := C107_spatial_energy world_ok rfl run rfl column_uni rfl rfl (show 2 * 1 ≤ 2 * 1 by decide)
  exact ⟨_, r, run, h1, h2⟩

end QS.Props
