import Verif.Lemmas.OccDensity
import Verif.Props.Energy
import Verif.Props.Density
import Verif.Props.SpinDoubling

/-!
# Spin-summed densities and determinants in terms of their density matrix (C89, C90)
-/

namespace QS.Props

open Finset NDArray BasisSet PyM Demo

variable {K T : Type} [PyScalar K]

/-! ## C89 -/

/-- The density of the spin-summed matrix `Σ_σ rho[2q+σ, 2p+σ]` of spin orbitals `2p + σ`, from the `l`
spatial functions. -/
def spinSummedAt (l : ℕ) (rho ket bra : NDArray K) (i : List ℕ) : K :=
  ∑ p ∈ range l, ∑ q ∈ range l, bra.get (p :: i) * (∑ a ∈ range 2, rho.get [2 * q + a, 2 * p + a])
    * ket.get (q :: i)

/-- Full statement of C89: in the spin-doubled basis the particle density of every density matrix is the
spin-summed density of the spatial functions. -/
def C89_statement (K : Type) [PyScalar K] : Prop :=
  ∀ (b b' : BasisSet K) (l : ℕ) (a₀ a₁ b₀ b₁ : K) (anti : Bool) (x y rho d : NDArray K) (g : List ℕ),
    WellFormed b l → b.includesSpin = false → OrthoSpin a₀ a₁ b₀ b₁ → b.spf = some x → b.bra = some y →
    x.shape = l :: g →
    (changeToGeneralBase [a₀, a₁] [b₀, b₁] anti).run b = (.ok true, b') → rho.shape = [2 * l, 2 * l] →
    ((computeParticleDensity rho none none).run b').1 = .ok d →
    ∀ i, InRange g i → d.get i = spinSummedAt l rho x y i

/-- What the code computes: elements of the density matrix between different spins count as much as those
between equal spins. -/
def spinPairsAt (l : ℕ) (rho ket bra : NDArray K) (i : List ℕ) : K :=
  ∑ p ∈ range l, ∑ q ∈ range l, bra.get (p :: i)
    * (∑ a ∈ range 2, ∑ c ∈ range 2, rho.get [2 * q + c, 2 * p + a]) * ket.get (q :: i)

/-- **C89** (what the code computes) -/
theorem C89_actual {b b' : BasisSet K} {l : ℕ} {a₀ a₁ b₀ b₁ : K} {anti : Bool} {x y rho d : NDArray K}
    {g : List ℕ} (hb : WellFormed b l) (hsp : b.includesSpin = false) (hx : b.spf = some x)
    (hy : b.bra = some y) (sx : x.shape = l :: g)
    (h : (changeToGeneralBase [a₀, a₁] [b₀, b₁] anti).run b = (.ok true, b'))
    (sr : rho.shape = [2 * l, 2 * l]) (r : ((computeParticleDensity rho none none).run b').1 = .ok d)
    {i : List ℕ} (hi : InRange g i) : d.get i = spinPairsAt l rho x y i := by
  obtain ⟨-, hg, wf', -⟩ := C16_general hb hsp h
  obtain ⟨np, hnp⟩ := wf'.np
  have hx' := hg.spf
  have hy' := hg.bra
  rw [hx] at hx'
  rw [hy] at hy'
  rcases ex : b'.spf with _ | x'
  · rw [ex] at hx'; exact hx'.elim
  rcases ey : b'.bra with _ | y'
  · rw [ey] at hy'; exact hy'.elim
  rw [ex] at hx'
  rw [ey] at hy'
  have sx' : x'.shape = 2 * l :: g := by rw [hx'.1, sx]; rfl
  rw [density_none_run ex ey, hnp] at r
  have hss : y'.shape = x'.shape := by
    by_contra hc
    simp [computeParticleDensityFn, hc] at r
  have hdd : y'.dtype = x'.dtype := by
    by_contra hc
    simp [computeParticleDensityFn, hss, hc] at r
  obtain ⟨g', sy, -⟩ := WellFormed.bra_shape hb hy
  have hgg : g' = g := by
    have := hy'.1
    rw [hss, sx', sy] at this
    simpa using this.symm
  subst hgg
  rcases Nat.eq_zero_or_pos l with rfl | hl
  · have hd : d.get i = 0 := by
      simp only [computeParticleDensityFn, hss, hdd, ne_eq, not_true_eq_false, if_false, needNp, bind,
        Except.bind, shapeAt, sx', List.getElem?_cons_zero, mul_zero, List.range_zero, List.foldlM_nil] at r
      obtain rfl := Except.ok.inj r
      simp
    rw [hd]
    simp [spinPairsAt]
  have hdr : x'.dtype.promote rho.dtype = x'.dtype := by
    by_contra hc
    rw [densityFn_type (by omega) sr sx' (hss.trans sx') hdd hc] at r
    simp at r
  rw [densityFn_eq sr sx' (hss.trans sx') hdd hdr] at r
  obtain rfl := Except.ok.inj r
  rw [densityArr, ofFn_get_of hi, sum_range_two_mul]
  unfold spinPairsAt
  refine sum_congr rfl fun p hp => ?_
  have hp := mem_range.1 hp
  rw [sum_congr rfl fun a _ => sum_range_two_mul _ l, sum_comm]
  refine sum_congr rfl fun q hq => ?_
  have hq := mem_range.1 hq
  rw [mul_sum, sum_mul]
  refine sum_congr rfl fun a ha => ?_
  rw [mul_sum, sum_mul]
  refine sum_congr rfl fun c hc => ?_
  rw [hy'.2 p hp a (mem_range.1 ha) i (by rw [sy]; exact hi), hx'.2 q hq c (mem_range.1 hc) i (by rw [sx]; exact hi)]

/-- **C89** (part) The density is the spin-summed one if the density matrix has no elements between
different spins.  Missing: all other density matrices, for which the claim is false. -/
theorem C89_partial {b b' : BasisSet K} {l : ℕ} {a₀ a₁ b₀ b₁ : K} {anti : Bool} {x y rho d : NDArray K}
    {g : List ℕ} (hb : WellFormed b l) (hsp : b.includesSpin = false) (hx : b.spf = some x)
    (hy : b.bra = some y) (sx : x.shape = l :: g)
    (h : (changeToGeneralBase [a₀, a₁] [b₀, b₁] anti).run b = (.ok true, b'))
    (sr : rho.shape = [2 * l, 2 * l]) (r : ((computeParticleDensity rho none none).run b').1 = .ok d)
    (hs : ∀ p < l, ∀ q < l, ∀ a < 2, ∀ c < 2, a ≠ c → rho.get [2 * q + c, 2 * p + a] = 0)
    {i : List ℕ} (hi : InRange g i) : d.get i = spinSummedAt l rho x y i := by
  rw [C89_actual hb hsp hx hy sx h sr r hi]
  unfold spinPairsAt spinSummedAt
  refine sum_congr rfl fun p hp => sum_congr rfl fun q hq => ?_
  have hp := mem_range.1 hp
  have hq := mem_range.1 hq
  simp only [sum_two]
  rw [hs p hp q hq 0 (by omega) 1 (by omega) (by omega), hs p hp q hq 1 (by omega) 0 (by omega) (by omega)]
  ring

/-- **C89** (closed shells) With the same spatial density matrix for both spins the density is twice that of
the spatial system. -/
theorem C89_closed_shell {b b' : BasisSet K} {l : ℕ} {a₀ a₁ b₀ b₁ : K} {anti : Bool}
    {x y rho rho₀ d : NDArray K} {g : List ℕ} (hb : WellFormed b l) (hsp : b.includesSpin = false)
    (hx : b.spf = some x) (hy : b.bra = some y) (sx : x.shape = l :: g)
    (h : (changeToGeneralBase [a₀, a₁] [b₀, b₁] anti).run b = (.ok true, b'))
    (hr : IsDoubledOneBody l l rho₀ rho) (r : ((computeParticleDensity rho none none).run b').1 = .ok d)
    {i : List ℕ} (hi : InRange g i) : d.get i = 2 * densityAt l rho₀ x y i := by
  rw [C89_partial hb hsp hx hy sx h hr.1 r (fun p hp q hq a ha c hc hac => by
    rw [hr.2 q hq p hp c hc a ha, if_neg (Ne.symm hac)]) hi]
  unfold spinSummedAt densityAt
  rw [mul_sum]
  refine sum_congr rfl fun p hp => ?_
  rw [mul_sum]
  refine sum_congr rfl fun q hq => ?_
  have hp := mem_range.1 hp
  have hq := mem_range.1 hq
  rw [sum_two, hr.2 q hq p hp 0 (by omega) 0 (by omega), hr.2 q hq p hp 1 (by omega) 1 (by omega), if_pos rfl,
    if_pos rfl]
  ring

/-- One particle with spin along `x` in the first spatial orbital: trace one. -/
def rhoX : NDArray GaussQ :=
  mat .complex128 [[⟨1 / 2, 0⟩, ⟨1 / 2, 0⟩, 0, 0], [⟨1 / 2, 0⟩, ⟨1 / 2, 0⟩, 0, 0], [0, 0, 0, 0], [0, 0, 0, 0]]

/-- The spin-doubled demo basis has a density for every `4 × 4` complex density matrix. -/
theorem demo_general : ∃ b', (changeToGeneralBase [(1 : GaussQ), 0] [0, 1] true).run basis = (.ok true, b') ∧
    ∃ d, ((computeParticleDensity rhoX none none).run b').1 = .ok d := by
  obtain ⟨b', h⟩ := C16_succeeds true basis_wf rfl rfl ortho_std
  refine ⟨b', h, ?_⟩
  obtain ⟨ov, hs, -, rfl⟩ := changeToGeneralBase_inv basis_wf rfl h
  obtain ⟨d, hd, -⟩ := C27_density (b := general basis 2 ov 1 0 0 1 true) (rho := rhoX) (l := 4)
    (g := [3]) rfl rfl rfl rfl rfl rfl rfl rfl
  exact ⟨d, by rw [hd]⟩

/-- **C89** is false: one particle with spin along `x` gets twice its density. -/
theorem C89_false : ¬ C89_statement GaussQ := by
  intro hC
  obtain ⟨b', h, d, hd⟩ := demo_general
  have h1 := hC basis b' 2 1 0 0 1 true Demo.spf Demo.spf.conj rhoX d [3] basis_wf rfl ortho_std rfl rfl rfl h rfl
    hd [0] (by decide)
  have h2 := C89_actual basis_wf rfl rfl rfl rfl h rfl hd (i := [0]) (by decide)
  rw [h2] at h1
  revert h1
  decide +kernel

/-- The hypotheses of the partial theorem are met by a spin-polarised density matrix. -/
example : (∀ p < 2, ∀ q < 2, ∀ a < 2, ∀ c < 2, a ≠ c →
    (mat .complex128 [[g 1 0, 0, g 0 1, 0], [0, 0, 0, 0], [g 0 (-1), 0, g 2 0, 0], [0, 0, 0, 0]]
      : NDArray GaussQ).get [2 * q + c, 2 * p + a] = 0) := by decide +kernel

/-! ## C90 -/

/-- **C90** After every successful `change_basis` (square or not, with or without `C_tilde`) the reference
energy is the energy of the determinant with density matrix `C_occ C~_occ` computed from the elements before
the change; general and spatial systems of every size. -/
theorem C90_energy {w w' : World K T} {s : ℕ} {x : Sys} {b : BasisSet K} {C : NDArray K}
    {Ct : Option (NDArray K)} {v : Unit} (ok : SysOK w s x b)
    (run : (World.changeBasis s C Ct).run w = (.ok v, w')) {H U : NDArray K} (hh : b.h = some H)
    (hu : b.u = some U) :
    ∃ r, (World.referenceEnergy s).run w' = (.ok r, w') ∧ r.shape = [] ∧
      r.get [] = densityEnergy x.kind x.l (occDensity x.n C (Ct.getD C.conj.T)) H U := by
  obtain ⟨n, hC, hCt, hn, rfl⟩ := World.changeBasis_ok ok run
  have ok' := World.withChanged_ok ok (changed_wellFormed (C := C) (Ct := Ct.getD C.conj.T)
    (n := n) ok.wf) rfl hn
  have hh' : (changed b C (Ct.getD C.conj.T) x.l n).h =
      some (oneBodyArr H C (Ct.getD C.conj.T) n x.l x.l n) := by simp [changed, hh]
  have hu' : (changed b C (Ct.getD C.conj.T) x.l n).u =
      some (twoBodyArr U C (Ct.getD C.conj.T) x.l n n) := by simp [changed, hu]
  obtain ⟨r, h1, h2, h3⟩ := World.referenceEnergy_run ok' hh' hu'
  refine ⟨r, h1, h2, ?_⟩
  rw [h3]
  exact energy_density hn
    ⟨rfl, fun p hp q hq => oneBodyArr_get hp hq⟩
    ⟨rfl, fun p hp q hq r hr t ht => twoBodyArr_get hp hq hr ht⟩ x.kind

/-- **C90** The Fock matrix built from the elements after the change is the basis change of the Fock operator
of that density matrix in the old basis. -/
theorem C90_fock {w w' : World K T} {s : ℕ} {x : Sys} {b : BasisSet K} {C : NDArray K}
    {Ct : Option (NDArray K)} {v : Unit} (ok : SysOK w s x b)
    (run : (World.changeBasis s C Ct).run w = (.ok v, w')) {H U : NDArray K} (hh : b.h = some H)
    (hu : b.u = some U) {x' : Sys} {b' : BasisSet K} (hx' : w'.systems[s]? = some x')
    (hb' : w'.bases[x'.basis]? = some b') {m m' : Mem K} {h u t : ℕ} (mh : m[h]? = b'.h) (mu : m[u]? = b'.u)
    (frun : (World.constructFock x' h u none).run m = (.ok t, m')) :
    ∃ F, m'[t]? = some F ∧ F.shape = [x'.l, x'.l] ∧ ∀ p < x'.l, ∀ q < x'.l, F.get [p, q] =
      ∑ a ∈ range x.l, ∑ c ∈ range x.l, (Ct.getD C.conj.T).get [p, a] *
        densityFock x.kind x.l (occDensity x.n C (Ct.getD C.conj.T)) H U a c * C.get [c, q] := by
  obtain ⟨n, hC, hCt, hn, rfl⟩ := World.changeBasis_ok ok run
  have ok' := World.withChanged_ok ok (changed_wellFormed (C := C) (Ct := Ct.getD C.conj.T)
    (n := n) ok.wf) rfl hn
  obtain rfl : x' = World.sized x x.n n := by
    have := hx'.symm.trans ok'.sys
    exact Option.some.inj this
  obtain rfl : b' = changed b C (Ct.getD C.conj.T) x.l n := by
    have := hb'.symm.trans ok'.basis
    exact Option.some.inj this
  obtain ⟨np, hnp⟩ := ok'.wf.np
  have hh' : (changed b C (Ct.getD C.conj.T) x.l n).h =
      some (oneBodyArr H C (Ct.getD C.conj.T) n x.l x.l n) := by simp [changed, hh]
  have hu' : (changed b C (Ct.getD C.conj.T) x.l n).u =
      some (twoBodyArr U C (Ct.getD C.conj.T) x.l n n) := by simp [changed, hu]
  obtain ⟨rfl, rfl⟩ := fock_inv (ok'.np.trans hnp) ok'.size.o hn (mh.trans hh') (mu.trans hu')
    rfl rfl frun
  refine ⟨_, List.getElem?_concat_length, rfl, fun p hp q hq => ?_⟩
  rw [fockArr, ofFn_get_of (by exact ⟨hp, hq, trivial⟩)]
  exact fock_density hn
    ⟨rfl, fun p hp q hq => oneBodyArr_get hp hq⟩
    ⟨rfl, fun p hp q hq r hr t ht => twoBodyArr_get hp hq hr ht⟩ x.kind hp hq

/-- The demo system after the change with the `2 × 3` matrix `C23`. -/
example : ∃ w' r, (World.changeBasis 0 C23 none).run world = (.ok (), w') ∧
    (World.referenceEnergy 0).run w' = (.ok r, w') ∧
    r.get [] = densityEnergy .spatial 2 (occDensity 1 C23 C23.conj.T) Demo.h Demo.u := by
  have run := World.changeBasis_sys_run (n := 3) (C := C23) (Ct := none) world_ok (basis_noSpin.spinShaped 2)
    rfl rfl (by decide)
  obtain ⟨r, h1, -, h3⟩ := C90_energy world_ok run rfl rfl
  exact ⟨_, r, run, h1, h3⟩
/-- This energy is `1776`. -/
example : densityEnergy .spatial 2 (occDensity 1 C23 C23.conj.T) Demo.h Demo.u = g 1776 0 := by decide +kernel

end QS.Props
