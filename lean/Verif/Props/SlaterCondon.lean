import Verif.Lemmas.ManyBody
import Verif.Props.Gradient

/-!
# Property C106: the reference energy and the Fock matrix are many-body matrix elements

`N`-particle wave functions are functions of `N` basis indices, `hamiltonOp` is the Hamilton operator in first
quantisation, made of the *plain* elements. The occupied orbitals of a system are the first ones.
-/

namespace QS.Props

open Finset NDArray BasisSet PyM Demo Function

variable {K T : Type} [PyScalar K]

/-- The first `n` of `l` orbitals. -/
def firstOrbitals {n l : ℕ} (h : n ≤ l) : Fin n → Fin l := Fin.castLE h

theorem firstOrbitals_injective {n l : ℕ} (h : n ≤ l) : Injective (firstOrbitals h) := Fin.castLE_injective h

theorem firstOrbitals_ne {n l : ℕ} (h : n ≤ l) {a : Fin l} (ha : n ≤ a.1) (j : Fin n) : a ≠ firstOrbitals h j := by
  intro e
  have := congrArg Fin.val e
  simp only [firstOrbitals, Fin.val_castLE] at this
  omega

/-- The Hamilton operator commutes with exchanges of particles: it takes antisymmetric functions to antisymmetric
functions. Determinants are antisymmetric, their norm is `n!`, and determinants of different sets of orbitals are
orthogonal. -/
theorem C106_determinants {N L : ℕ} {o : Fin N → Fin L} (ho : Injective o) :
    (∀ (h : Fin L → Fin L → K) (u : Fin L → Fin L → Fin L → Fin L → K) (Ψ : Wave K N L), Antisymmetric Ψ →
      Antisymmetric (hamiltonOp h u Ψ)) ∧
    Antisymmetric (slater (K := K) o) ∧ waveInner (slater (K := K) o) (slater o) = (N.factorial : K) ∧
    ∀ o' : Fin N → Fin L, Injective o' → Set.range o ≠ Set.range o' →
      waveInner (slater (K := K) o) (slater o') = 0 := by
  refine ⟨fun h u Ψ hΨ => hamiltonOp_antisymmetric h u hΨ, slater_antisymmetric o, ?_, ?_⟩
  · rw [slater_inner o (slater_antisymmetric o), slater_self ho, mul_one]
  · intro o' ho' hne
    rw [slater_inner o (slater_antisymmetric o')]
    obtain ⟨i, hi⟩ : ∃ i, ∀ j, o i ≠ o' j := by
      by_contra hc
      push Not at hc
      refine hne (Set.eq_of_subset_of_card_le ?_ ?_)
      · rintro _ ⟨i, rfl⟩
        obtain ⟨j, hj⟩ := hc i
        exact ⟨j, hj.symm⟩
      · rw [Set.card_range_of_injective ho, Set.card_range_of_injective ho']
    rw [slater_missing hi, mul_zero]

/-- **C106** With the stored anti-symmetrised elements and the prefactor `1/4` the operator on antisymmetric functions
is the Hamilton operator of the plain elements. -/
theorem C106_antisymmetrised {N l : ℕ} {U U' : NDArray K} (hU : IsAntiSymmetrised l U U') (h : Fin l → Fin l → K)
    {Ψ : Wave K N l} (hΨ : Antisymmetric Ψ) (x : Fin N → Fin l) :
    hamiltonOp h (arrayTwo l U) Ψ x = oneBodyOp h Ψ x + 1 / 4 * twoBodyOp (arrayTwo l U') Ψ x := by
  have e : arrayTwo l U' = fun p q r s => arrayTwo l U p q r s - arrayTwo l U p q s r := by
    funext p q r s
    exact hU.2 p p.2 q q.2 r r.2 s s.2
  unfold hamiltonOp
  rw [twoBodyOp_anti (arrayTwo l U) hΨ, e]
  ring

/-- The energy formula of general systems is an expectation value. -/
theorem general_expectation {n l : ℕ} (hn : n ≤ l) {H : NDArray K} {U' : NDArray K}
    {u : Fin l → Fin l → Fin l → Fin l → K}
    (hU : ∀ p q r s : Fin l, U'.get [p.1, q.1, r.1, s.1] = u p q r s - u p q s r) :
    waveInner (slater (firstOrbitals hn)) (hamiltonOp (arrayOne l H) u (slater (firstOrbitals hn))) =
      (n.factorial : K) * energyGeneral n H U' := by
  rw [slater_inner _ (hamiltonOp_antisymmetric _ _ (slater_antisymmetric _)),
    hamilton_slater _ _ (firstOrbitals_injective hn), energyGeneral]
  simp only [← hU]
  simp only [Finset.sum_range, arrayOne, firstOrbitals, Fin.val_castLE]

/-- The Fock matrix formula of general systems is a matrix element. -/
theorem general_single {n l : ℕ} (hn : n ≤ l) {H : NDArray K} {U' : NDArray K}
    {u : Fin l → Fin l → Fin l → Fin l → K}
    (hU : ∀ p q r s : Fin l, U'.get [p.1, q.1, r.1, s.1] = u p q r s - u p q s r)
    (hx : ∀ p q r s, u p q r s = u q p s r) (i : Fin n) {a : Fin l} (ha : n ≤ a.1) :
    waveInner (slater (update (firstOrbitals hn) i a))
        (hamiltonOp (arrayOne l H) u (slater (firstOrbitals hn))) =
      (n.factorial : K) * fockGeneralAt n H U' a i := by
  rw [slater_inner _ (hamiltonOp_antisymmetric _ _ (slater_antisymmetric _)),
    hamilton_single _ _ (firstOrbitals_injective hn) i (firstOrbitals_ne hn ha), fockGeneralAt, Finset.sum_range]
  congr 1
  have e : ∑ j, (u (firstOrbitals hn j) a (firstOrbitals hn j) (firstOrbitals hn i) -
        u (firstOrbitals hn j) a (firstOrbitals hn i) (firstOrbitals hn j)) =
      ∑ j, (u a (firstOrbitals hn j) (firstOrbitals hn i) (firstOrbitals hn j) -
        u a (firstOrbitals hn j) (firstOrbitals hn j) (firstOrbitals hn i)) :=
    sum_congr rfl fun j _ => by rw [hx _ a, hx _ a]
  rw [e]
  have e2 : ∀ j : Fin n, U'.get [a.1, j.1, i.1, j.1] = u a (firstOrbitals hn j) (firstOrbitals hn i)
      (firstOrbitals hn j) - u a (firstOrbitals hn j) (firstOrbitals hn j) (firstOrbitals hn i) := fun j => by
    rw [← hU]; simp [firstOrbitals]
  simp only [e2, arrayOne]
  have h2 : (2 : K) ≠ 0 := two_ne_zero
  have e3 : ((firstOrbitals hn i : Fin l) : ℕ) = i := by simp [firstOrbitals]
  rw [e3]
  field_simp
  ring

/-- **C106** The reference energy of a general system with anti-symmetrised elements is the expectation value of the
Hamilton operator of the plain elements in the determinant of the first `n` orbitals. -/
theorem C106_general {w : World K T} {s : ℕ} {x : Sys} {b : BasisSet K} (ok : SysOK w s x b) (hk : x.kind = .general)
    {H U U' : NDArray K} (hh : b.h = some H) (hu : b.u = some U') (hU : IsAntiSymmetrised x.l U U') :
    ∃ r, (World.referenceEnergy s).run w = (.ok r, w) ∧
      waveInner (slater (firstOrbitals ok.size.le))
          (hamiltonOp (arrayOne x.l H) (arrayTwo x.l U) (slater (firstOrbitals ok.size.le))) =
        r.get [] * waveInner (slater (K := K) (firstOrbitals ok.size.le)) (slater (firstOrbitals ok.size.le)) ∧
      waveInner (slater (K := K) (firstOrbitals ok.size.le)) (slater (firstOrbitals ok.size.le)) ≠ 0 := by
  obtain ⟨r, h1, -, h3⟩ := World.referenceEnergy_run ok hh hu
  have hc := PyScalar.charZero (K := K)
  refine ⟨r, h1, ?_, ?_⟩
  · rw [general_expectation ok.size.le (u := arrayTwo x.l U) (U' := U') fun p q r s => hU.2 p p.2 q q.2 r r.2 s s.2, h3, hk, energyOf,
      (C106_determinants (firstOrbitals_injective ok.size.le)).2.2.1, mul_comm]
  · rw [(C106_determinants (firstOrbitals_injective ok.size.le)).2.2.1]
    exact Nat.cast_ne_zero.2 (Nat.factorial_ne_zero _)

/-- **C106** The Fock matrix of a general system between a virtual and an occupied orbital is the matrix element
between the determinant with this replacement and the reference determinant. -/
theorem C106_general_fock {w : World K T} {s : ℕ} {x : Sys} {b : BasisSet K} (ok : SysOK w s x b)
    (hk : x.kind = .general) {H U U' F : NDArray K} (hh : b.h = some H) (hu : b.u = some U')
    (hU : IsAntiSymmetrised x.l U U') (hx : ExchU x.l U) (hF : FockOf x b F) (i : Fin x.n) {a : Fin x.l}
    (ha : x.n ≤ a.1) :
    waveInner (slater (update (firstOrbitals ok.size.le) i a))
        (hamiltonOp (arrayOne x.l H) (arrayTwo x.l U) (slater (firstOrbitals ok.size.le))) =
      (x.n.factorial : K) * F.get [a.1, i.1] := by
  rw [general_single ok.size.le (u := arrayTwo x.l U) (U' := U') (fun p q r s => hU.2 p p.2 q q.2 r r.2 s s.2)
    (fun p q r s => hx p p.2 q q.2 r r.2 s s.2) i ha,
    fockOf_get ok hh hu hF a.2 (lt_of_lt_of_le i.2 ok.size.le), hk, fockAt]

/-- **C106** Brillouin's condition: the virtual-occupied block of the Fock matrix vanishes if and only if the
Hamilton operator does not couple the reference determinant to determinants with one replaced orbital. -/
theorem C106_brillouin {w : World K T} {s : ℕ} {x : Sys} {b : BasisSet K} (ok : SysOK w s x b)
    (hk : x.kind = .general) {H U U' F : NDArray K} (hh : b.h = some H) (hu : b.u = some U')
    (hU : IsAntiSymmetrised x.l U U') (hx : ExchU x.l U) (hF : FockOf x b F) :
    (∀ a < x.l, ∀ i < x.n, x.n ≤ a → F.get [a, i] = 0) ↔
      ∀ (i : Fin x.n) (a : Fin x.l), x.n ≤ a.1 →
        waveInner (slater (update (firstOrbitals ok.size.le) i a))
          (hamiltonOp (arrayOne x.l H) (arrayTwo x.l U) (slater (firstOrbitals ok.size.le))) = 0 := by
  have hc := PyScalar.charZero (K := K)
  have hf : (x.n.factorial : K) ≠ 0 := Nat.cast_ne_zero.2 (Nat.factorial_ne_zero _)
  constructor
  · intro h i a ha
    rw [C106_general_fock ok hk hh hu hU hx hF i ha, h a a.2 i i.2 ha, mul_zero]
  · intro h a hal i hi ha
    have := C106_general_fock ok hk hh hu hU hx hF ⟨i, hi⟩ (a := ⟨a, hal⟩) ha
    rw [h ⟨i, hi⟩ ⟨a, hal⟩ ha] at this
    rcases mul_eq_zero.1 this.symm with h1 | h1
    · exact absurd h1 hf
    · exact h1

/-! ## Spatial orbitals -/

/-- The array of spin-doubled one-body elements. -/
def doubledOneArr (l : ℕ) (H : NDArray K) : NDArray K :=
  ofFn .complex128 [2 * l, 2 * l] fun i => if i[0]! % 2 = i[1]! % 2 then H.get [i[0]! / 2, i[1]! / 2] else 0

/-- The array of anti-symmetrised spin-doubled two-body elements. -/
def doubledAntiArr (l : ℕ) (U : NDArray K) : NDArray K :=
  ofFn .complex128 [2 * l, 2 * l, 2 * l, 2 * l] fun i =>
    (if i[0]! % 2 = i[2]! % 2 ∧ i[1]! % 2 = i[3]! % 2 then
      U.get [i[0]! / 2, i[1]! / 2, i[2]! / 2, i[3]! / 2] else 0) -
    if i[0]! % 2 = i[3]! % 2 ∧ i[1]! % 2 = i[2]! % 2 then
      U.get [i[0]! / 2, i[1]! / 2, i[3]! / 2, i[2]! / 2] else 0

theorem doubledOneArr_get {l : ℕ} {H : NDArray K} {p q : ℕ} (hp : p < 2 * l) (hq : q < 2 * l) :
    (doubledOneArr l H).get [p, q] = if p % 2 = q % 2 then H.get [p / 2, q / 2] else 0 := by
  rw [doubledOneArr, ofFn_get_of (by simp [hp, hq])]
  rfl

theorem doubledAntiArr_get {l : ℕ} {U : NDArray K} {p q r s : ℕ} (hp : p < 2 * l) (hq : q < 2 * l) (hr : r < 2 * l)
    (hs : s < 2 * l) :
    (doubledAntiArr l U).get [p, q, r, s] =
      (if p % 2 = r % 2 ∧ q % 2 = s % 2 then U.get [p / 2, q / 2, r / 2, s / 2] else 0) -
      if p % 2 = s % 2 ∧ q % 2 = r % 2 then U.get [p / 2, q / 2, s / 2, r / 2] else 0 := by
  rw [doubledAntiArr, ofFn_get_of (by simp [hp, hq, hr, hs])]
  rfl

theorem pair_div {p a : ℕ} (ha : a < 2) : (2 * p + a) / 2 = p ∧ (2 * p + a) % 2 = a := by omega

theorem doubledOneArr_is (l : ℕ) (H : NDArray K) : IsDoubledOneBody l l H (doubledOneArr l H) := by
  refine ⟨rfl, fun p hp q hq a ha b hb => ?_⟩
  rw [doubledOneArr_get (by omega) (by omega)]
  simp only [pair_div ha, pair_div hb]

theorem doubledAntiArr_is (l : ℕ) (U : NDArray K) : IsDoubledAntiTwoBody l U (doubledAntiArr l U) := by
  refine ⟨rfl, fun p hp q hq r hr s hs a ha b hb c hc d hd => ?_⟩
  rw [doubledAntiArr_get (by omega) (by omega) (by omega) (by omega)]
  simp only [pair_div ha, pair_div hb, pair_div hc, pair_div hd]

theorem arrayOne_doubled {l : ℕ} {H H' : NDArray K} (h : IsDoubledOneBody l l H H') :
    arrayOne (2 * l) H' = spinOne l H := by
  funext p q
  have := h.2 (p.1 / 2) (by omega) (q.1 / 2) (by omega) (p.1 % 2) (by omega) (q.1 % 2) (by omega)
  rw [Nat.div_add_mod, Nat.div_add_mod] at this
  exact this

theorem doubledAnti_get {l : ℕ} {U U' : NDArray K} (h : IsDoubledAntiTwoBody l U U') (p q r s : Fin (2 * l)) :
    U'.get [p.1, q.1, r.1, s.1] = spinTwo l U p q r s - spinTwo l U p q s r := by
  have := h.2 (p.1 / 2) (by omega) (q.1 / 2) (by omega) (r.1 / 2) (by omega) (s.1 / 2) (by omega) (p.1 % 2) (by omega)
    (q.1 % 2) (by omega) (r.1 % 2) (by omega) (s.1 % 2) (by omega)
  rw [Nat.div_add_mod, Nat.div_add_mod, Nat.div_add_mod, Nat.div_add_mod] at this
  exact this

/-- **C106** The reference energy of a spatial system is the expectation value of the Hamilton operator in the
determinant of the lowest `n` spatial orbitals, each occupied by two particles of opposite spin. -/
theorem C106_spatial {w : World K T} {s : ℕ} {x : Sys} {b : BasisSet K} (ok : SysOK w s x b) (hk : x.kind = .spatial)
    {H U : NDArray K} (hh : b.h = some H) (hu : b.u = some U) (hn : 2 * x.n ≤ 2 * x.l) :
    ∃ r, (World.referenceEnergy s).run w = (.ok r, w) ∧
      waveInner (slater (firstOrbitals hn)) (hamiltonOp (spinOne x.l H) (spinTwo x.l U) (slater (firstOrbitals hn))) =
        r.get [] * waveInner (slater (K := K) (firstOrbitals hn)) (slater (firstOrbitals hn)) ∧
      waveInner (slater (K := K) (firstOrbitals hn)) (slater (firstOrbitals hn)) ≠ 0 := by
  obtain ⟨r, h1, -, h3⟩ := World.referenceEnergy_run ok hh hu
  have hc := PyScalar.charZero (K := K)
  refine ⟨r, h1, ?_, ?_⟩
  · rw [← arrayOne_doubled (doubledOneArr_is x.l H), general_expectation hn (doubledAnti_get (doubledAntiArr_is x.l U)),
      energy_doubled ok.size.le (doubledOneArr_is x.l H) (doubledAntiArr_is x.l U), h3, hk, energyOf,
      (C106_determinants (firstOrbitals_injective hn)).2.2.1, mul_comm]
  · rw [(C106_determinants (firstOrbitals_injective hn)).2.2.1]
    exact Nat.cast_ne_zero.2 (Nat.factorial_ne_zero _)

/-- **C106** The Fock matrix of a spatial system is the matrix element for the replacement of one spin orbital by
one of the same spin; replacements with the other spin are not coupled. -/
theorem C106_spatial_fock {w : World K T} {s : ℕ} {x : Sys} {b : BasisSet K} (ok : SysOK w s x b)
    (hk : x.kind = .spatial) {H U F : NDArray K} (hh : b.h = some H) (hu : b.u = some U) (hx : ExchU x.l U)
    (hF : FockOf x b F) (hn : 2 * x.n ≤ 2 * x.l) {i a σ τ : ℕ} (hi : i < x.n) (ha : x.n ≤ a) (hal : a < x.l) (hσ : σ < 2)
    (hτ : τ < 2) :
    waveInner (slater (update (firstOrbitals hn) ⟨2 * i + σ, by omega⟩ ⟨2 * a + τ, by omega⟩))
        (hamiltonOp (spinOne x.l H) (spinTwo x.l U) (slater (firstOrbitals hn))) =
      if τ = σ then ((2 * x.n).factorial : K) * F.get [a, i] else 0 := by
  rw [← arrayOne_doubled (doubledOneArr_is x.l H), general_single hn (doubledAnti_get (doubledAntiArr_is x.l U))
    (fun p q r s => ?_) _ (by show 2 * x.n ≤ 2 * a + τ; omega),
    fock_doubled ok.size.le (doubledOneArr_is x.l H) (doubledAntiArr_is x.l U) hal (by omega) hτ hσ,
    fockOf_get ok hh hu hF hal (by omega), hk, fockAt, mul_ite, mul_zero]
  unfold spinTwo
  rw [hx (p.1 / 2) (by omega) (q.1 / 2) (by omega) (r.1 / 2) (by omega) (s.1 / 2) (by omega)]
  exact if_congr and_comm rfl rfl

/-- **C106** The general system of any number of particles in a spin-doubled anti-symmetrised basis: its reference
energy is the expectation value of the Hamilton operator made of the elements *before* the doubling. -/
theorem C106_doubled {w : World K T} {s l : ℕ} {x : Sys} {b b' : BasisSet K} (ok : SysOK w s x b')
    (hk : x.kind = .general) (hl : x.l = 2 * l) (hg : GeneralOf b b' l true) (ha : b.antiSym = false) {H U : NDArray K}
    (hh : b.h = some H) (hu : b.u = some U) (hn : x.n ≤ 2 * l) :
    ∃ r, (World.referenceEnergy s).run w = (.ok r, w) ∧
      waveInner (slater (firstOrbitals hn)) (hamiltonOp (spinOne l H) (spinTwo l U) (slater (firstOrbitals hn))) =
        r.get [] * waveInner (slater (K := K) (firstOrbitals hn)) (slater (firstOrbitals hn)) ∧
      waveInner (slater (K := K) (firstOrbitals hn)) (slater (firstOrbitals hn)) ≠ 0 := by
  obtain ⟨H', hh', -⟩ := ok.wf.h
  obtain ⟨U', hu', -⟩ := ok.wf.u
  have dh := hg.h
  rw [hh, hh'] at dh
  have du := hg.u
  rw [hu, hu', if_pos ⟨rfl, ha⟩] at du
  obtain ⟨r, h1, -, h3⟩ := World.referenceEnergy_run ok hh' hu'
  have hc := PyScalar.charZero (K := K)
  refine ⟨r, h1, ?_, ?_⟩
  · rw [← arrayOne_doubled dh, general_expectation hn (doubledAnti_get du), h3, hk, energyOf,
      (C106_determinants (firstOrbitals_injective hn)).2.2.1, mul_comm]
  · rw [(C106_determinants (firstOrbitals_injective hn)).2.2.1]
    exact Nat.cast_ne_zero.2 (Nat.factorial_ne_zero _)

/-- **C106** The variational principle: every lower bound of the energy of antisymmetric states is a lower bound of
the reference energy. -/
theorem C106_variational {w : World ℂ T} {s : ℕ} {x : Sys} {b : BasisSet ℂ} (ok : SysOK w s x b)
    (hk : x.kind = .spatial) {H U : NDArray ℂ} (hh : b.h = some H) (hu : b.u = some U) {E : ℝ}
    (hE : ∀ Ψ : Wave ℂ (2 * x.n) (2 * x.l), Antisymmetric Ψ →
      E * (waveInner Ψ Ψ).re ≤ (waveInner Ψ (hamiltonOp (spinOne x.l H) (spinTwo x.l U) Ψ)).re) :
    ∃ r, (World.referenceEnergy s).run w = (.ok r, w) ∧ E ≤ (r.get []).re := by
  have hle := ok.size.le
  have hn : 2 * x.n ≤ 2 * x.l := by omega
  obtain ⟨r, h1, h2, -⟩ := C106_spatial ok hk hh hu hn
  refine ⟨r, h1, ?_⟩
  have := hE _ (slater_antisymmetric (firstOrbitals hn))
  rw [h2, (C106_determinants (K := ℂ) (firstOrbitals_injective hn)).2.2.1] at this
  have hf : (0 : ℝ) < ((2 * x.n).factorial : ℝ) := Nat.cast_pos.2 (Nat.factorial_pos _)
  rw [← Complex.ofReal_natCast, Complex.re_mul_ofReal, Complex.ofReal_re] at this
  exact le_of_mul_le_mul_right this hf

/-- **C106** The same for general systems with anti-symmetrised elements. -/
theorem C106_variational_general {w : World ℂ T} {s : ℕ} {x : Sys} {b : BasisSet ℂ} (ok : SysOK w s x b)
    (hk : x.kind = .general) {H U U' : NDArray ℂ} (hh : b.h = some H) (hu : b.u = some U')
    (hU : IsAntiSymmetrised x.l U U') {E : ℝ}
    (hE : ∀ Ψ : Wave ℂ x.n x.l, Antisymmetric Ψ →
      E * (waveInner Ψ Ψ).re ≤ (waveInner Ψ (hamiltonOp (arrayOne x.l H) (arrayTwo x.l U) Ψ)).re) :
    ∃ r, (World.referenceEnergy s).run w = (.ok r, w) ∧ E ≤ (r.get []).re := by
  obtain ⟨r, h1, h2, -⟩ := C106_general ok hk hh hu hU
  refine ⟨r, h1, ?_⟩
  have := hE _ (slater_antisymmetric (firstOrbitals ok.size.le))
  rw [h2, (C106_determinants (K := ℂ) (firstOrbitals_injective ok.size.le)).2.2.1] at this
  have hf : (0 : ℝ) < (x.n.factorial : ℝ) := Nat.cast_pos.2 (Nat.factorial_pos _)
  rw [← Complex.ofReal_natCast, Complex.re_mul_ofReal, Complex.ofReal_re] at this
  exact le_of_mul_le_mul_right this hf

/-! ## Examples -/

/-- Two particles in four spin orbitals: the determinant of the first two. -/
example : slater (K := GaussQ) (firstOrbitals (show 2 ≤ 4 by decide)) ![0, 1] = 1 ∧
    slater (K := GaussQ) (firstOrbitals (show 2 ≤ 4 by decide)) ![1, 0] = -1 ∧
    slater (K := GaussQ) (firstOrbitals (show 2 ≤ 4 by decide)) ![0, 2] = 0 := by
  refine ⟨?_, ?_, ?_⟩ <;> rw [slater, Matrix.det_fin_two] <;> decide +kernel

theorem two_factorial : ((2 * sys.n).factorial : GaussQ) = Demo.g 2 0 := by
  rw [show (2 * sys.n).factorial = 1 + 1 from rfl, Nat.cast_add, Nat.cast_one]
  decide +kernel

/-- `C106_spatial` for the system of `Demo.world`: `2 h_00 + u_0000 = 3`. -/
example : waveInner (slater (firstOrbitals (show 2 * 1 ≤ 2 * 2 by decide)))
    (hamiltonOp (spinOne 2 Demo.h) (spinTwo 2 Demo.u) (slater (firstOrbitals (show 2 * 1 ≤ 2 * 2 by decide)))) =
      Demo.g 6 0 := by
  obtain ⟨r, h1, h2, -⟩ := C106_spatial world_ok rfl rfl rfl (show 2 * 1 ≤ 2 * 2 by decide)
  obtain ⟨r', h1', -, -, h3⟩ := C24_formulas world_ok rfl rfl
  rw [h1] at h1'
  cases h1'
  refine h2.trans ((congrArg (r.get [] * ·) (C106_determinants (firstOrbitals_injective _)).2.2.1).trans ?_)
  simp only [h3 rfl]
  rw [two_factorial]
  decide +kernel

/-- `C106_spatial_fock` for the same system: orbital `0` with spin `0` is replaced by orbital `1`. -/
example : waveInner (slater (update (firstOrbitals (show 2 * 1 ≤ 2 * 2 by decide)) 0 2))
    (hamiltonOp (spinOne 2 Demo.h) (spinTwo 2 Demo.u) (slater (firstOrbitals (show 2 * 1 ≤ 2 * 2 by decide)))) =
      Demo.g 6 (-2) := by
  obtain ⟨F, hF⟩ := fockOf_exists world_ok rfl rfl rfl
  have := C106_spatial_fock world_ok rfl rfl rfl (by unfold ExchU; decide +kernel) hF (show 2 * 1 ≤ 2 * 2 by decide)
    (i := 0) (a := 1) (σ := 0) (τ := 0) (by decide) (by decide) (by decide) (by decide) (by decide)
  refine Eq.trans this ?_
  rw [if_pos rfl, fockOf_get world_ok rfl rfl hF (by decide) (by decide), two_factorial]
  decide +kernel

/-- The general system that `construct_general_orbital_system` makes of `Demo.world` meets the hypotheses of
`C106_doubled` and, with the plain spin-doubled elements, those of `C106_general`. -/
example : ∃ g w' x b', (World.constructGeneral 0 [1, 0] [0, 1] true).run world = (.ok g, w') ∧ SysOK w' g x b' ∧
    x.kind = .general ∧ x.n = 2 ∧ x.l = 2 * 2 ∧ GeneralOf Demo.basis b' 2 true ∧
    ∃ U', b'.u = some U' ∧ IsAntiSymmetrised x.l (dbl2 Demo.u 2) U' ∧ U'.get [0, 1, 0, 1] = Demo.g 1 0 := by
  obtain ⟨g, w', x, b', run, ok, hk, hn, hl, hg⟩ := general_system true world_ok rfl rfl rfl rfl rfl ortho_std
  have hl' : x.l = 2 * 2 := hl
  obtain ⟨U', hu, hs⟩ := ok.wf.u
  have du := hg.u
  rw [hu, if_pos ⟨rfl, rfl⟩] at du
  refine ⟨g, w', x, b', run, ok, hk, hn, hl, hg, U', hu, ⟨hs, fun p hp q hq r hr s hs => ?_⟩, ?_⟩
  · rw [hl'] at hp hq hr hs
    rw [dbl2_get hp hq hr hs, dbl2_get hp hq hs hr]
    exact doubledAnti_get du ⟨p, hp⟩ ⟨q, hq⟩ ⟨r, hr⟩ ⟨s, hs⟩
  · refine (doubledAnti_get (l := 2) du 0 1 0 1).trans ?_
    decide +kernel

end QS.Props
