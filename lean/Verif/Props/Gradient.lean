import Verif.Props.Determinant
import Mathlib.Analysis.Calculus.Deriv.Add
import Mathlib.Analysis.Calculus.Deriv.Mul
import Mathlib.Analysis.Calculus.Deriv.Linear
import Mathlib.Analysis.Complex.Basic

/-!
# Orbital energies and the reference energy (C98); the Fock matrix is the gradient of the reference energy (C99)
-/

namespace QS.Props

open Finset NDArray BasisSet PyM Demo

variable {K T : Type} [PyScalar K]

/-! ## C98 -/

/-- The Fock matrix of a system, built from the elements that its basis set holds, at addresses `h` and `u`. -/
def FockOf (x : Sys) (b : BasisSet K) (F : NDArray K) : Prop :=
  ∃ (m m' : Mem K) (h u t : ℕ), m[h]? = b.h ∧ m[u]? = b.u ∧
    (World.constructFock x h u none).run m = (.ok t, m') ∧ m'[t]? = some F

theorem fockOf_get {w : World K T} {s : ℕ} {x : Sys} {b : BasisSet K} {F H U : NDArray K} (ok : SysOK w s x b)
    (hh : b.h = some H) (hu : b.u = some U) (hF : FockOf x b F) {p q : ℕ} (hp : p < x.l) (hq : q < x.l) :
    F.get [p, q] = fockAt x.kind x.n H U p q := by
  obtain ⟨m, m', h, u, t, mh, mu, run, hF⟩ := hF
  obtain ⟨np, hnp⟩ := ok.wf.np
  obtain ⟨H', hh', sh⟩ := ok.wf.h
  obtain ⟨U', hu', su⟩ := ok.wf.u
  obtain rfl : H = H' := by rw [hh] at hh'; exact Option.some.inj hh'
  obtain rfl : U = U' := by rw [hu] at hu'; exact Option.some.inj hu'
  obtain ⟨rfl, rfl⟩ := fock_inv (ok.np.trans hnp) ok.size.o ok.size.le (mh.trans hh) (mu.trans hu) sh su run
  rw [List.getElem?_concat_length] at hF
  cases hF
  rw [fockArr, ofFn_get_of (by exact ⟨hp, hq, trivial⟩)]

/-- A system has a Fock matrix if the dtype of `h` can hold `u`. -/
theorem fockOf_exists {w : World K T} {s : ℕ} {x : Sys} {b : BasisSet K} {H U : NDArray K} (ok : SysOK w s x b)
    (hh : b.h = some H) (hu : b.u = some U) (hd : H.dtype.promote U.dtype = H.dtype) :
    ∃ F, FockOf x b F := by
  obtain ⟨np, hnp⟩ := ok.wf.np
  obtain ⟨H', hh', sh⟩ := ok.wf.h
  obtain ⟨U', hu', su⟩ := ok.wf.u
  obtain rfl : H = H' := by rw [hh] at hh'; exact Option.some.inj hh'
  obtain rfl : U = U' := by rw [hu] at hu'; exact Option.some.inj hu'
  obtain ⟨r, m', F, run, hF, -⟩ := C26_fock (x := x) (m := [H, U]) (h := 0) (u := 1) (f := none) (ok.np.trans hnp)
    ok.size.o ok.size.le rfl rfl sh su (fun _ h => nomatch h) (by cases H with | mk d => cases d <;> rfl) hd
  exact ⟨F, [H, U], m', 0, 1, r, hh.symm, hu.symm, run, hF⟩

/-- **C98** The reference energy is half the sum (general systems) or the sum (doubly occupied orbitals) of the
one-body energies and the orbital energies of the occupied orbitals. -/
theorem C98_sum {w w' : World K T} {s : ℕ} {x : Sys} {b : BasisSet K} {H F r : NDArray K} (ok : SysOK w s x b)
    (hh : b.h = some H) (hF : FockOf x b F) (run : (World.referenceEnergy s).run w = (.ok r, w')) :
    (x.kind = .general → r.get [] = 1 / 2 * ∑ i ∈ range x.n, (H.get [i, i] + F.get [i, i])) ∧
    (x.kind = .spatial → r.get [] = ∑ i ∈ range x.n, (H.get [i, i] + F.get [i, i])) := by
  obtain ⟨U, hu, -⟩ := ok.wf.u
  obtain ⟨r', h1, -, h3⟩ := World.referenceEnergy_run ok hh hu
  rw [run] at h1
  cases h1
  have hle := ok.size.le
  have e : ∀ i ∈ range x.n, H.get [i, i] + F.get [i, i] = H.get [i, i] + fockAt x.kind x.n H U i i :=
    fun i hi => by
      have := mem_range.1 hi
      rw [fockOf_get ok hh hu hF (by omega) (by omega)]
  rw [sum_congr rfl e, h3]
  refine ⟨fun hk => ?_, fun hk => ?_⟩
  · rw [hk]
    simp only [energyOf, fockAt, energyGeneral, fockGeneralAt, sum_add_distrib]
    field_simp
    ring
  · rw [hk]
    simp only [energyOf, fockAt, energySpatial, fockSpatialAt, sum_add_distrib]
    ring

/-- The last row and column of a double sum. -/
theorem sum_sum_succ (n : ℕ) (g : ℕ → ℕ → K) : ∑ i ∈ range (n + 1), ∑ j ∈ range (n + 1), g i j =
    ∑ i ∈ range n, ∑ j ∈ range n, g i j + ∑ i ∈ range n, (g i n + g n i) + g n n := by
  simp only [sum_range_succ, sum_add_distrib]
  ring

/-- **C98** (Koopmans) With anti-symmetric elements the energy that it takes to occupy one more orbital is its
orbital energy. -/
theorem C98_koopmans {w w' w₁ w₁' : World K T} {s s' : ℕ} {x x' : Sys} {b : BasisSet K} {U F r r' : NDArray K}
    (ok : SysOK w s x b) (ok' : SysOK w₁ s' x' b) (hk : x.kind = .general) (hk' : x'.kind = .general)
    (hn : x'.n = x.n + 1) (hu : b.u = some U) (hE : ExchU x.l U) (hA : AntiKet x.l U) (hF : FockOf x b F)
    (run : (World.referenceEnergy s).run w = (.ok r, w'))
    (run' : (World.referenceEnergy s').run w₁ = (.ok r', w₁')) :
    r'.get [] - r.get [] = F.get [x.n, x.n] := by
  obtain ⟨H, hh, -⟩ := ok.wf.h
  have hll : x'.l = x.l := by rw [← ok.wf.l_eq, ← ok'.wf.l_eq]
  have hlt : x.n < x.l := by have := ok'.size.le; omega
  obtain ⟨y, h1, -, h3⟩ := World.referenceEnergy_run ok hh hu
  rw [run] at h1
  cases h1
  obtain ⟨y', h1', -, h3'⟩ := World.referenceEnergy_run ok' hh hu
  rw [run'] at h1'
  cases h1'
  rw [h3, h3', fockOf_get ok hh hu hF hlt hlt, hk, hk', hn]
  have h0 : U.get [x.n, x.n, x.n, x.n] = 0 := by
    have := hA x.n hlt x.n hlt x.n hlt x.n hlt
    exact self_eq_neg.1 this
  have hs : ∑ i ∈ range x.n, (U.get [i, x.n, i, x.n] + U.get [x.n, i, x.n, i]) =
      2 * ∑ i ∈ range x.n, U.get [x.n, i, x.n, i] := by
    rw [mul_sum]
    refine sum_congr rfl fun i hi => ?_
    have := mem_range.1 hi
    rw [hE i (by omega) x.n hlt i (by omega) x.n hlt]
    ring
  simp only [energyOf, fockAt, energyGeneral, fockGeneralAt]
  rw [sum_sum_succ, hs, h0, sum_range_succ]
  field_simp
  ring

/-- **C98** Occupying one more spatial orbital twice costs twice its orbital energy and the repulsion of the
pair. -/
theorem C98_pair {w w' w₁ w₁' : World K T} {s s' : ℕ} {x x' : Sys} {b : BasisSet K} {U F r r' : NDArray K}
    (ok : SysOK w s x b) (ok' : SysOK w₁ s' x' b) (hk : x.kind = .spatial) (hk' : x'.kind = .spatial)
    (hn : x'.n = x.n + 1) (hu : b.u = some U) (hE : ExchU x.l U) (hF : FockOf x b F)
    (run : (World.referenceEnergy s).run w = (.ok r, w'))
    (run' : (World.referenceEnergy s').run w₁ = (.ok r', w₁')) :
    r'.get [] - r.get [] = 2 * F.get [x.n, x.n] + U.get [x.n, x.n, x.n, x.n] := by
  obtain ⟨H, hh, -⟩ := ok.wf.h
  have hll : x'.l = x.l := by rw [← ok.wf.l_eq, ← ok'.wf.l_eq]
  have hlt : x.n < x.l := by have := ok'.size.le; omega
  obtain ⟨y, h1, -, h3⟩ := World.referenceEnergy_run ok hh hu
  rw [run] at h1
  cases h1
  obtain ⟨y', h1', -, h3'⟩ := World.referenceEnergy_run ok' hh hu
  rw [run'] at h1'
  cases h1'
  rw [h3, h3', fockOf_get ok hh hu hF hlt hlt, hk, hk', hn]
  have hs : ∑ i ∈ range x.n, (2 * U.get [i, x.n, i, x.n] - U.get [i, x.n, x.n, i]
        + (2 * U.get [x.n, i, x.n, i] - U.get [x.n, i, i, x.n])) =
      2 * ∑ i ∈ range x.n, (2 * U.get [x.n, i, x.n, i] - U.get [x.n, i, i, x.n]) := by
    rw [mul_sum]
    refine sum_congr rfl fun i hi => ?_
    have := mem_range.1 hi
    rw [hE i (by omega) x.n hlt i (by omega) x.n hlt, hE i (by omega) x.n hlt x.n hlt i (by omega)]
    ring
  simp only [energyOf, fockAt, energySpatial, fockSpatialAt]
  rw [sum_sum_succ, hs, sum_range_succ]
  ring

/-- The demo system with two doubly occupied orbitals. -/
def pairSys : Sys := { sys with n := 2, m := 0, o := (0, 2), v := (2, 2) }

theorem pairWorld_ok : SysOK { world with systems := [pairSys] } 0 pairSys basis :=
  ⟨rfl, rfl, basis_wf, rfl, by decide, rfl, rfl, rfl⟩

theorem demo_exch : ExchU 2 Demo.u := by unfold ExchU; decide +kernel

/-- One pair: `E = h_00 + F_00 = 3`, `F_11 = 4`.  The second pair adds `2 F_11 + u_1111 = 19`. -/
example : ∃ (F r r' : NDArray GaussQ), FockOf sys basis F ∧ F.get [0, 0] = g 2 0 ∧ F.get [1, 1] = g 4 0 ∧
    (World.referenceEnergy 0).run world = (.ok r, world) ∧ r.get [] = g 3 0 ∧
    (World.referenceEnergy 0).run { world with systems := [pairSys] } =
      (.ok r', { world with systems := [pairSys] }) ∧ r'.get [] - r.get [] = g 19 0 := by
  obtain ⟨F, hF⟩ := fockOf_exists world_ok rfl rfl (by rfl)
  obtain ⟨r, h1, -, -⟩ := World.referenceEnergy_run world_ok rfl rfl
  obtain ⟨r', h1', -, -⟩ := World.referenceEnergy_run pairWorld_ok rfl rfl
  have f0 : F.get [0, 0] = g 2 0 := by
    rw [fockOf_get world_ok rfl rfl hF (by decide) (by decide)]; decide +kernel
  have f1 : F.get [1, 1] = g 4 0 := by
    rw [fockOf_get world_ok rfl rfl hF (by decide) (by decide)]; decide +kernel
  refine ⟨F, r, r', hF, f0, f1, h1, ?_, h1', ?_⟩
  · rw [(C98_sum world_ok rfl hF h1).2 rfl, show sys.n = 1 from rfl, sum_range_one, f0]
    decide +kernel
  · rw [C98_pair world_ok pairWorld_ok rfl rfl rfl rfl demo_exch hF h1 h1', show sys.n = 1 from rfl, f1]
    decide +kernel

/-- The demo basis with anti-symmetrised elements, `u_1010 = -1`. -/
def antiBasis : BasisSet GaussQ :=
  { basis with u := some (ofFn .float64 [2, 2, 2, 2] fun i => match i with
      | [p, q, r, t] => Demo.u.get [p, q, r, t] - Demo.u.get [p, q, t, r]
      | _ => 0) }

theorem antiBasis_wf : WellFormed antiBasis 2 :=
  ⟨rfl, ⟨0, rfl⟩, basis_wf.h, ⟨_, rfl, rfl⟩, basis_wf.s, basis_wf.dipole, basis_wf.spf, basis_wf.bra,
    basis_wf.braNeedsSpf, basis_wf.tb⟩

/-- One and two electrons in it: the second electron adds `F_11 = 3 - 1`. -/
example : ∃ F r r', FockOf gsys antiBasis F ∧ F.get [1, 1] = g 2 0 ∧
    (World.referenceEnergy 0).run { gworld with bases := [antiBasis] } =
      (.ok r, { gworld with bases := [antiBasis] }) ∧
    (World.referenceEnergy 0).run { gworld with bases := [antiBasis], systems := [{ pairSys with kind := .general }] } =
      (.ok r', { gworld with bases := [antiBasis], systems := [{ pairSys with kind := .general }] }) ∧
    r'.get [] - r.get [] = g 2 0 := by
  have ok : SysOK { gworld with bases := [antiBasis] } 0 gsys antiBasis :=
    ⟨rfl, rfl, antiBasis_wf, rfl, by decide, rfl, rfl, rfl⟩
  have ok' : SysOK { gworld with bases := [antiBasis], systems := [{ pairSys with kind := .general }] } 0
      { pairSys with kind := .general } antiBasis := ⟨rfl, rfl, antiBasis_wf, rfl, by decide, rfl, rfl, rfl⟩
  obtain ⟨F, hF⟩ := fockOf_exists ok rfl rfl (by rfl)
  obtain ⟨r, h1, -, -⟩ := World.referenceEnergy_run ok rfl rfl
  obtain ⟨r', h1', -, -⟩ := World.referenceEnergy_run ok' rfl rfl
  have f1 : F.get [1, 1] = g 2 0 := by
    rw [fockOf_get ok rfl rfl hF (by decide) (by decide)]; decide +kernel
  exact ⟨F, r, r', hF, f1, h1, h1', (C98_koopmans ok ok' rfl rfl rfl rfl (by unfold ExchU; decide +kernel)
    (by unfold AntiKet; decide +kernel) hF h1 h1').trans f1⟩

/-! ## C99 -/

/-- `δ_ba` for occupied orbitals: the density matrix of the reference determinant in its own basis. -/
def occOne (n : ℕ) (b a : ℕ) : K := if b = a ∧ a < n then 1 else 0

/-- The part of the energy that is of second order in a change `D` of the density matrix. -/
def densityQuad (k : SysKind) (l : ℕ) (D : ℕ → ℕ → K) (u : NDArray K) : K :=
  match k with
  | .general => 1 / 2 * ∑ a ∈ range l, ∑ b ∈ range l, ∑ c ∈ range l, ∑ d ∈ range l, D c a * D d b * u.get [a, b, c, d]
  | .spatial => ∑ a ∈ range l, ∑ b ∈ range l, ∑ c ∈ range l, ∑ d ∈ range l,
        (2 * (D c a * D d b) - D d a * D c b) * u.get [a, b, c, d]

/-- Electrons per orbital. -/
def perOrbital : SysKind → K
  | .general => 1
  | .spatial => 2

/-- Exchange of both pairs of indices in a fourfold sum. -/
theorem sum_swap_pairs (l : ℕ) (g : ℕ → ℕ → ℕ → ℕ → K) :
    ∑ a ∈ range l, ∑ b ∈ range l, ∑ c ∈ range l, ∑ d ∈ range l, g a b c d =
      ∑ a ∈ range l, ∑ b ∈ range l, ∑ c ∈ range l, ∑ d ∈ range l, g b a d c := by
  rw [sum_comm]
  refine sum_congr rfl fun b _ => sum_congr rfl fun a _ => ?_
  rw [sum_comm]

theorem sum_four_congr {l : ℕ} {g g' : ℕ → ℕ → ℕ → ℕ → K}
    (h : ∀ a < l, ∀ b < l, ∀ c < l, ∀ d < l, g a b c d = g' a b c d) :
    ∑ a ∈ range l, ∑ b ∈ range l, ∑ c ∈ range l, ∑ d ∈ range l, g a b c d =
      ∑ a ∈ range l, ∑ b ∈ range l, ∑ c ∈ range l, ∑ d ∈ range l, g' a b c d :=
  sum_congr rfl fun a ha => sum_congr rfl fun b hb => sum_congr rfl fun c hc => sum_congr rfl fun d hd =>
    h a (mem_range.1 ha) b (mem_range.1 hb) c (mem_range.1 hc) d (mem_range.1 hd)

/-- The energy is a quadratic function of the density matrix, and its linear part is the Fock operator. -/
theorem densityEnergy_expand (k : SysKind) {l : ℕ} (D E : ℕ → ℕ → K) {h u : NDArray K} (hE : ExchU l u) :
    densityEnergy k l (fun b a => D b a + E b a) h u = densityEnergy k l D h u
      + perOrbital k * ∑ a ∈ range l, ∑ b ∈ range l, E b a * densityFock k l D h u a b + densityQuad k l E u := by
  have e1 : ∑ a ∈ range l, ∑ b ∈ range l, ∑ c ∈ range l, ∑ d ∈ range l, D c a * E d b * u.get [a, b, c, d] =
      ∑ a ∈ range l, ∑ b ∈ range l, ∑ c ∈ range l, ∑ d ∈ range l, E c a * D d b * u.get [a, b, c, d] := by
    rw [sum_swap_pairs]
    refine sum_four_congr fun a ha b hb c hc d hd => ?_
    rw [hE b hb a ha d hd c hc]
    ring
  have e2 : ∑ a ∈ range l, ∑ b ∈ range l, E b a * ∑ c ∈ range l, ∑ d ∈ range l, D d c * u.get [a, c, b, d] =
      ∑ a ∈ range l, ∑ b ∈ range l, ∑ c ∈ range l, ∑ d ∈ range l, E c a * D d b * u.get [a, b, c, d] := by
    refine sum_congr rfl fun a _ => ?_
    rw [sum_comm' (s := range l) (t := fun _ => range l) (t' := range l) (s' := fun _ => range l) (by simp)]
    refine sum_congr rfl fun b _ => ?_
    rw [mul_sum]
    refine sum_congr rfl fun c _ => ?_
    rw [mul_sum]
    refine sum_congr rfl fun d _ => ?_
    ring
  have e3 : ∑ a ∈ range l, ∑ b ∈ range l, ∑ c ∈ range l, ∑ d ∈ range l, D d a * E c b * u.get [a, b, c, d] =
      ∑ a ∈ range l, ∑ b ∈ range l, ∑ c ∈ range l, ∑ d ∈ range l, E d a * D c b * u.get [a, b, c, d] := by
    rw [sum_swap_pairs]
    refine sum_four_congr fun a ha b hb c hc d hd => ?_
    rw [hE b hb a ha d hd c hc]
    ring
  have e4 : ∑ a ∈ range l, ∑ b ∈ range l, E b a * ∑ c ∈ range l, ∑ d ∈ range l, D d c * u.get [a, c, d, b] =
      ∑ a ∈ range l, ∑ b ∈ range l, ∑ c ∈ range l, ∑ d ∈ range l, E d a * D c b * u.get [a, b, c, d] := by
    refine sum_congr rfl fun a _ => ?_
    rw [sum_congr rfl fun b _ => mul_sum (range l) _ (E b a), sum_comm]
    refine sum_congr rfl fun b _ => ?_
    rw [sum_congr rfl fun d _ => mul_sum (range l) _ (E d a), sum_comm]
    refine sum_congr rfl fun c _ => sum_congr rfl fun d _ => ?_
    ring
  cases k with
  | general =>
    simp only [densityEnergy, densityFock, densityQuad, perOrbital]
    simp only [mul_add, add_mul, sum_add_distrib, one_mul]
    rw [e2, e1]
    ring
  | spatial =>
    have e5 : ∑ a ∈ range l, ∑ b ∈ range l, ∑ c ∈ range l, ∑ d ∈ range l,
        (2 * ((D c a + E c a) * (D d b + E d b)) - (D d a + E d a) * (D c b + E c b)) * u.get [a, b, c, d] =
        ∑ a ∈ range l, ∑ b ∈ range l, ∑ c ∈ range l, ∑ d ∈ range l,
          (2 * (D c a * D d b) - D d a * D c b) * u.get [a, b, c, d]
        + (2 * ∑ a ∈ range l, ∑ b ∈ range l, ∑ c ∈ range l, ∑ d ∈ range l, D c a * E d b * u.get [a, b, c, d]
          + 2 * ∑ a ∈ range l, ∑ b ∈ range l, ∑ c ∈ range l, ∑ d ∈ range l, E c a * D d b * u.get [a, b, c, d]
          - ∑ a ∈ range l, ∑ b ∈ range l, ∑ c ∈ range l, ∑ d ∈ range l, D d a * E c b * u.get [a, b, c, d]
          - ∑ a ∈ range l, ∑ b ∈ range l, ∑ c ∈ range l, ∑ d ∈ range l, E d a * D c b * u.get [a, b, c, d])
        + ∑ a ∈ range l, ∑ b ∈ range l, ∑ c ∈ range l, ∑ d ∈ range l,
          (2 * (E c a * E d b) - E d a * E c b) * u.get [a, b, c, d] := by
      simp only [mul_sum, ← sum_add_distrib, ← sum_sub_distrib]
      refine sum_four_congr fun a _ b _ c _ d _ => ?_
      ring
    have e6 : ∑ a ∈ range l, ∑ b ∈ range l, E b a * ∑ c ∈ range l, ∑ d ∈ range l,
        D d c * (2 * u.get [a, c, b, d] - u.get [a, c, d, b]) =
        2 * (∑ a ∈ range l, ∑ b ∈ range l, E b a * ∑ c ∈ range l, ∑ d ∈ range l, D d c * u.get [a, c, b, d])
        - ∑ a ∈ range l, ∑ b ∈ range l, E b a * ∑ c ∈ range l, ∑ d ∈ range l, D d c * u.get [a, c, d, b] := by
      simp only [mul_sum, ← sum_sub_distrib]
      refine sum_four_congr fun a _ b _ c _ d _ => ?_
      ring
    simp only [densityEnergy, densityFock, densityQuad, perOrbital]
    rw [e5, e1, e3]
    simp only [mul_add, add_mul, sum_add_distrib]
    rw [e6, e2, e4]
    ring

theorem occ_sum {n l : ℕ} (hn : n ≤ l) (g : ℕ → ℕ → K) :
    ∑ a ∈ range l, ∑ b ∈ range l, occOne n b a * g a b = ∑ i ∈ range n, g i i := by
  have e : ∀ a ∈ range l, ∑ b ∈ range l, occOne n b a * g a b = if a ∈ range n then g a a else 0 := by
    intro a ha
    rw [sum_eq_single a]
    · by_cases h : a < n <;> simp [occOne, h]
    · intro b _ hb
      simp [occOne, hb]
    · exact fun h => absurd ha h
  rw [sum_congr rfl e, sum_ite_mem, inter_eq_right.2 (range_subset_range.2 hn)]

theorem densityFock_occ (k : SysKind) {n l : ℕ} (hn : n ≤ l) (h u : NDArray K) (p q : ℕ) :
    densityFock k l (occOne n) h u p q = fockAt k n h u p q := by
  cases k with
  | general =>
    simp only [densityFock, fockAt, fockGeneralAt]
    rw [occ_sum hn fun c d => u.get [p, c, q, d]]
  | spatial =>
    simp only [densityFock, fockAt, fockSpatialAt]
    rw [occ_sum hn fun c d => 2 * u.get [p, c, q, d] - u.get [p, c, d, q]]

theorem densityEnergy_occ (k : SysKind) {n l : ℕ} (hn : n ≤ l) (h u : NDArray K) :
    densityEnergy k l (occOne n) h u = energyOf k n h u := by
  have e1 : ∑ a ∈ range l, ∑ b ∈ range l, ∑ c ∈ range l, ∑ d ∈ range l,
      occOne n c a * occOne n d b * u.get [a, b, c, d] = ∑ i ∈ range n, ∑ j ∈ range n, u.get [i, j, i, j] := by
    rw [← occ_sum hn fun a c => ∑ j ∈ range n, u.get [a, j, c, j]]
    refine sum_congr rfl fun a _ => ?_
    rw [sum_comm]
    refine sum_congr rfl fun c _ => ?_
    rw [← occ_sum hn fun b d => u.get [a, b, c, d], mul_sum]
    refine sum_congr rfl fun b _ => ?_
    rw [mul_sum]
    exact sum_congr rfl fun d _ => by ring
  have e2 : ∑ a ∈ range l, ∑ b ∈ range l, ∑ c ∈ range l, ∑ d ∈ range l,
      occOne n d a * occOne n c b * u.get [a, b, c, d] = ∑ i ∈ range n, ∑ j ∈ range n, u.get [i, j, j, i] := by
    rw [← occ_sum hn fun a d => ∑ j ∈ range n, u.get [a, j, j, d]]
    refine sum_congr rfl fun a _ => ?_
    rw [sum_congr rfl fun b _ => sum_comm (s := range l) (t := range l), sum_comm]
    refine sum_congr rfl fun d _ => ?_
    rw [← occ_sum hn fun b c => u.get [a, b, c, d], mul_sum]
    refine sum_congr rfl fun b _ => ?_
    rw [mul_sum]
    exact sum_congr rfl fun c _ => by ring
  cases k with
  | general =>
    simp only [densityEnergy, energyOf, energyGeneral]
    rw [e1, occ_sum hn fun a b => h.get [a, b]]
  | spatial =>
    have e3 : ∑ a ∈ range l, ∑ b ∈ range l, ∑ c ∈ range l, ∑ d ∈ range l,
        (2 * (occOne n c a * occOne n d b) - occOne n d a * occOne n c b) * u.get [a, b, c, d] =
        2 * (∑ a ∈ range l, ∑ b ∈ range l, ∑ c ∈ range l, ∑ d ∈ range l,
          occOne n c a * occOne n d b * u.get [a, b, c, d]) - ∑ a ∈ range l, ∑ b ∈ range l, ∑ c ∈ range l,
            ∑ d ∈ range l, occOne n d a * occOne n c b * u.get [a, b, c, d] := by
      simp only [mul_sum, ← sum_sub_distrib]
      refine sum_four_congr fun a _ b _ c _ d _ => ?_
      ring
    simp only [densityEnergy, energyOf, energySpatial]
    rw [e3, e1, e2, occ_sum hn fun a b => h.get [a, b]]
    simp only [sum_sub_distrib, mul_sum]

/-- **C99** The reference energy after any `change_basis` is the one before it, plus the Fock matrix contracted
with the change of the density matrix, plus terms of second order in that change. -/
theorem C99_expansion {w w₁ w' w₁' : World K T} {s : ℕ} {x : Sys} {b : BasisSet K} {C : NDArray K}
    {Ct : Option (NDArray K)} {v : Unit} {U F r r' : NDArray K} (ok : SysOK w s x b)
    (hu : b.u = some U) (hE : ExchU x.l U) (hF : FockOf x b F)
    (run : (World.changeBasis s C Ct).run w = (.ok v, w'))
    (e : (World.referenceEnergy s).run w = (.ok r, w₁)) (e' : (World.referenceEnergy s).run w' = (.ok r', w₁')) :
    r'.get [] = r.get [] + perOrbital x.kind * ∑ a ∈ range x.l, ∑ c ∈ range x.l,
        (occDensity x.n C (Ct.getD C.conj.T) c a - if c = a ∧ a < x.n then 1 else 0) * F.get [a, c]
      + densityQuad x.kind x.l
        (fun c a => occDensity x.n C (Ct.getD C.conj.T) c a - if c = a ∧ a < x.n then 1 else 0) U := by
  obtain ⟨H, hh, -⟩ := ok.wf.h
  obtain ⟨y, h1, -, h3⟩ := World.referenceEnergy_run ok hh hu
  rw [e] at h1
  cases h1
  obtain ⟨y', h1', -, h3'⟩ := C90_energy ok run hh hu
  rw [e'] at h1'
  cases h1'
  have hD : occDensity x.n C (Ct.getD C.conj.T) = fun c a => occOne x.n c a
      + (occDensity x.n C (Ct.getD C.conj.T) c a - if c = a ∧ a < x.n then 1 else 0) := by
    funext c a
    unfold occOne
    ring
  rw [h3', h3, hD, densityEnergy_expand _ _ _ hE, densityEnergy_occ _ ok.size.le, ← hD]
  congr 3
  refine sum_congr rfl fun a ha => sum_congr rfl fun c hc => ?_
  rw [densityFock_occ _ ok.size.le, fockOf_get ok hh hu hF (mem_range.1 ha) (mem_range.1 hc)]

/-- The change of the density matrix of the demo system under `C23`. -/
def change23 (c a : ℕ) : GaussQ := occDensity 1 C23 C23.conj.T c a - if c = a ∧ a < 1 then 1 else 0

/-- The change with the `2 × 3` matrix `C23`: the energy goes from 3 to 1776 = 3 + 108 + 1665. -/
example : ∃ (F r r' : NDArray GaussQ) (w' : World GaussQ ℤ), FockOf sys basis F ∧
    (World.referenceEnergy 0).run world = (.ok r, world) ∧
    (World.changeBasis 0 C23 none).run world = (.ok (), w') ∧
    (World.referenceEnergy 0).run w' = (.ok r', w') ∧ r'.get [] = r.get [] + perOrbital sys.kind *
      ∑ a ∈ range sys.l, ∑ c ∈ range sys.l, change23 c a * F.get [a, c] + densityQuad sys.kind sys.l change23 Demo.u := by
  obtain ⟨F, hF⟩ := fockOf_exists world_ok rfl rfl (by rfl)
  obtain ⟨r, h1, -, -⟩ := World.referenceEnergy_run world_ok rfl rfl
  have run := World.changeBasis_sys_run (n := 3) (C := C23) (Ct := none) world_ok (basis_noSpin.spinShaped 2)
    rfl rfl (by decide)
  obtain ⟨r', h1', -, -⟩ := C90_energy world_ok run rfl rfl
  have e := C99_expansion world_ok rfl demo_exch hF run h1 h1'
  exact ⟨F, r, r', _, hF, h1, run, h1', e⟩
example : perOrbital .spatial * ∑ a ∈ range 2, ∑ c ∈ range 2, change23 c a * fockAt .spatial 1 Demo.h Demo.u a c
      = g 108 0 ∧ densityQuad .spatial 2 change23 Demo.u = g 1665 0 := by decide +kernel

/-- The quadratic part has derivative zero where the change of the density matrix vanishes. -/
theorem hasDerivAt_quad (k : SysKind) (l : ℕ) {D : ℝ → ℕ → ℕ → ℂ} {D' : ℕ → ℕ → ℂ} (u : NDArray ℂ)
    (h0 : ∀ c < l, ∀ a < l, D 0 c a = 0) (hD : ∀ c < l, ∀ a < l, HasDerivAt (fun t => D t c a) (D' c a) 0) :
    HasDerivAt (fun t => densityQuad k l (D t) u) 0 0 := by
  have key : ∀ a < l, ∀ b < l, ∀ c < l, ∀ d < l, HasDerivAt (fun t => D t c a * D t d b) 0 0 := by
    intro a ha b hb c hc d hd
    have := (hD c hc a ha).mul (hD d hd b hb)
    rwa [h0 c hc a ha, h0 d hd b hb, mul_zero, zero_mul, add_zero] at this
  cases k with
  | general =>
    simp only [densityQuad]
    have : HasDerivAt (fun t => ∑ a ∈ range l, ∑ b ∈ range l, ∑ c ∈ range l, ∑ d ∈ range l,
        D t c a * D t d b * u.get [a, b, c, d]) (∑ a ∈ range l, ∑ b ∈ range l, ∑ c ∈ range l, ∑ d ∈ range l,
          (0 * u.get [a, b, c, d] : ℂ)) 0 := by
      refine HasDerivAt.fun_sum fun a ha => HasDerivAt.fun_sum fun b hb => HasDerivAt.fun_sum fun c hc =>
        HasDerivAt.fun_sum fun d hd => ?_
      exact (key a (mem_range.1 ha) b (mem_range.1 hb) c (mem_range.1 hc) d (mem_range.1 hd)).mul_const _
    simpa using this.const_mul (1 / 2 : ℂ)
  | spatial =>
    simp only [densityQuad]
    have : HasDerivAt (fun t => ∑ a ∈ range l, ∑ b ∈ range l, ∑ c ∈ range l, ∑ d ∈ range l,
        (2 * (D t c a * D t d b) - D t d a * D t c b) * u.get [a, b, c, d])
        (∑ a ∈ range l, ∑ b ∈ range l, ∑ c ∈ range l, ∑ d ∈ range l,
          ((2 * 0 - 0) * u.get [a, b, c, d] : ℂ)) 0 := by
      refine HasDerivAt.fun_sum fun a ha => HasDerivAt.fun_sum fun b hb => HasDerivAt.fun_sum fun c hc =>
        HasDerivAt.fun_sum fun d hd => ?_
      exact (((key a (mem_range.1 ha) b (mem_range.1 hb) c (mem_range.1 hc) d (mem_range.1 hd)).const_mul 2).sub
        (key a (mem_range.1 ha) b (mem_range.1 hb) d (mem_range.1 hd) c (mem_range.1 hc))).mul_const _
    simpa using this

/-- A differentiable family of basis changes through the identity at `t = 0` (as far as the occupied orbitals
are concerned), with the energies that the system reports. -/
structure EnergyCurve (w : World ℂ T) (s : ℕ) (x : Sys) (C Ct : ℝ → NDArray ℂ) (C' Ct' : ℕ → ℕ → ℂ)
    (E : ℝ → ℂ) : Prop where
  ket : ∀ c < x.l, ∀ i < x.n, HasDerivAt (fun t => (C t).get [c, i]) (C' c i) 0
  bra : ∀ c < x.l, ∀ i < x.n, HasDerivAt (fun t => (Ct t).get [i, c]) (Ct' i c) 0
  ket_zero : ∀ c < x.l, ∀ i < x.n, (C 0).get [c, i] = if c = i then 1 else 0
  bra_zero : ∀ c < x.l, ∀ i < x.n, (Ct 0).get [i, c] = if i = c then 1 else 0
  energy : ∀ t, ∃ w' w'' r, (World.changeBasis s (C t) (some (Ct t))).run w = (.ok (), w') ∧
    (World.referenceEnergy s).run w' = (.ok r, w'') ∧ r.get [] = E t

/-- The change of the density matrix of the occupied orbitals. -/
noncomputable def densityChange (n : ℕ) (C Ct : NDArray ℂ) (c a : ℕ) : ℂ := occDensity n C Ct c a - if c = a ∧ a < n then 1 else 0

/-- Its derivative at the identity. -/
noncomputable def densityDeriv (n : ℕ) (C' Ct' : ℕ → ℕ → ℂ) (c a : ℕ) : ℂ :=
  ∑ i ∈ range n, (C' c i * (if i = a then 1 else 0) + (if c = i then 1 else 0) * Ct' i a)

theorem densityChange_zero {n : ℕ} {C Ct : NDArray ℂ} {c a : ℕ}
    (h1 : ∀ i < n, C.get [c, i] = if c = i then 1 else 0) (h2 : ∀ i < n, Ct.get [i, a] = if i = a then 1 else 0) :
    densityChange n C Ct c a = 0 := by
  have e : occDensity n C Ct c a = if c = a ∧ a < n then 1 else 0 := by
    unfold occDensity
    rw [sum_congr rfl fun i hi => by rw [h1 i (mem_range.1 hi), h2 i (mem_range.1 hi)]]
    simp only [ite_mul, one_mul, zero_mul, sum_ite_eq, mem_range]
    by_cases h : c = a
    · subst h; simp
    · simp [h]
  rw [densityChange, e, sub_self]

theorem densityChange_deriv {n : ℕ} {C Ct : ℝ → NDArray ℂ} {C' Ct' : ℕ → ℕ → ℂ} {c a : ℕ}
    (h1 : ∀ i < n, (C 0).get [c, i] = if c = i then 1 else 0)
    (h2 : ∀ i < n, (Ct 0).get [i, a] = if i = a then 1 else 0)
    (d1 : ∀ i < n, HasDerivAt (fun t => (C t).get [c, i]) (C' c i) 0)
    (d2 : ∀ i < n, HasDerivAt (fun t => (Ct t).get [i, a]) (Ct' i a) 0) :
    HasDerivAt (fun t => densityChange n (C t) (Ct t) c a) (densityDeriv n C' Ct' c a) 0 := by
  refine HasDerivAt.sub_const _ ?_
  refine HasDerivAt.fun_sum fun i hi => ?_
  have := (d1 i (mem_range.1 hi)).mul (d2 i (mem_range.1 hi))
  rwa [h1 i (mem_range.1 hi), h2 i (mem_range.1 hi)] at this

theorem densityDeriv_sum {n l : ℕ} (hn : n ≤ l) (C' Ct' : ℕ → ℕ → ℂ) (F : ℕ → ℕ → ℂ) :
    ∑ a ∈ range l, ∑ c ∈ range l, densityDeriv n C' Ct' c a * F a c =
      ∑ i ∈ range n, ∑ c ∈ range l, (F i c * C' c i + Ct' i c * F c i) := by
  have e1 : ∑ a ∈ range l, ∑ c ∈ range l, ∑ i ∈ range n, C' c i * (if i = a then 1 else 0) * F a c =
      ∑ i ∈ range n, ∑ c ∈ range l, F i c * C' c i := by
    rw [sum_congr rfl fun a _ => sum_comm (s := range l), sum_comm]
    refine sum_congr rfl fun i hi => ?_
    rw [sum_comm]
    refine sum_congr rfl fun c _ => ?_
    rw [sum_eq_single i]
    · rw [if_pos rfl]; ring
    · intro a _ ha
      rw [if_neg (Ne.symm ha)]; ring
    · intro h
      exact absurd (mem_range.2 (lt_of_lt_of_le (mem_range.1 hi) hn)) h
  have e2 : ∑ a ∈ range l, ∑ c ∈ range l, ∑ i ∈ range n, (if c = i then 1 else 0) * Ct' i a * F a c =
      ∑ i ∈ range n, ∑ c ∈ range l, Ct' i c * F c i := by
    rw [sum_congr rfl fun a _ => sum_comm (s := range l), sum_comm]
    refine sum_congr rfl fun i hi => sum_congr rfl fun a _ => ?_
    rw [sum_eq_single i]
    · rw [if_pos rfl]; ring
    · intro c _ hc
      rw [if_neg hc]; ring
    · intro h
      exact absurd (mem_range.2 (lt_of_lt_of_le (mem_range.1 hi) hn)) h
  simp only [densityDeriv, sum_mul, add_mul, sum_add_distrib]
  rw [e1, e2]

/-- **C99** The derivative of the reference energy along any family of basis changes through the identity is the
contraction of the Fock matrix with the derivatives of the occupied orbitals. -/
theorem C99_gradient {w : World ℂ T} {s : ℕ} {x : Sys} {b : BasisSet ℂ} {C Ct : ℝ → NDArray ℂ}
    {C' Ct' : ℕ → ℕ → ℂ} {E : ℝ → ℂ} {U F : NDArray ℂ} (ok : SysOK w s x b) (hu : b.u = some U)
    (hE : ExchU x.l U) (hF : FockOf x b F) (hc : EnergyCurve w s x C Ct C' Ct' E) :
    HasDerivAt E (perOrbital x.kind * ∑ i ∈ range x.n, ∑ c ∈ range x.l,
      (F.get [i, c] * C' c i + Ct' i c * F.get [c, i])) 0 := by
  obtain ⟨H, hh, -⟩ := ok.wf.h
  obtain ⟨y, h1, -, h3⟩ := World.referenceEnergy_run ok hh hu
  have hexp : E = fun t => y.get [] + perOrbital x.kind * ∑ a ∈ range x.l, ∑ c ∈ range x.l,
      densityChange x.n (C t) (Ct t) c a * F.get [a, c]
      + densityQuad x.kind x.l (densityChange x.n (C t) (Ct t)) U := by
    funext t
    obtain ⟨w', w'', r, r1, r2, r3⟩ := hc.energy t
    have := C99_expansion ok hu hE hF r1 h1 r2
    simp only [Option.getD_some] at this
    rw [← r3, this]
    rfl
  have hD0 : ∀ c < x.l, ∀ a < x.l, densityChange x.n (C 0) (Ct 0) c a = 0 := fun c hc' a ha =>
    densityChange_zero (hc.ket_zero c hc') (fun i hi => hc.bra_zero a ha i hi)
  have hDd : ∀ c < x.l, ∀ a < x.l, HasDerivAt (fun t => densityChange x.n (C t) (Ct t) c a)
      (densityDeriv x.n C' Ct' c a) 0 := fun c hc' a ha =>
    densityChange_deriv (hc.ket_zero c hc') (fun i hi => hc.bra_zero a ha i hi) (hc.ket c hc')
      (fun i hi => hc.bra a ha i hi)
  rw [← densityDeriv_sum ok.size.le C' Ct' fun a c => F.get [a, c], hexp]
  have hlin : HasDerivAt (fun t => ∑ a ∈ range x.l, ∑ c ∈ range x.l,
      densityChange x.n (C t) (Ct t) c a * F.get [a, c])
      (∑ a ∈ range x.l, ∑ c ∈ range x.l, densityDeriv x.n C' Ct' c a * F.get [a, c]) 0 :=
    HasDerivAt.fun_sum fun a ha => HasDerivAt.fun_sum fun c hc' =>
      (hDd c (mem_range.1 hc') a (mem_range.1 ha)).mul_const (F.get [a, c])
  have := ((hlin.const_mul (perOrbital x.kind : ℂ)).const_add (y.get [])).add
    (hasDerivAt_quad x.kind x.l U hD0 hDd)
  rw [add_zero] at this
  exact this

/-- The families of basis changes that keep the occupied orbitals and their duals biorthonormal. -/
def Biorthonormal (x : Sys) (C Ct : ℝ → NDArray ℂ) : Prop :=
  ∀ t, ∀ i < x.n, ∀ j < x.n, ∑ c ∈ range x.l, (Ct t).get [i, c] * (C t).get [c, j] = if i = j then 1 else 0

theorem biorthonormal_deriv {w : World ℂ T} {s : ℕ} {x : Sys} {C Ct : ℝ → NDArray ℂ} {C' Ct' : ℕ → ℕ → ℂ}
    {E : ℝ → ℂ} (hle : x.n ≤ x.l) (hc : EnergyCurve w s x C Ct C' Ct' E) (ho : Biorthonormal x C Ct) {i j : ℕ}
    (hi : i < x.n) (hj : j < x.n) : Ct' i j = -C' i j := by
  have h1 : HasDerivAt (fun t => ∑ c ∈ range x.l, (Ct t).get [i, c] * (C t).get [c, j])
      (∑ c ∈ range x.l, (Ct' i c * (if c = j then 1 else 0) + (if i = c then 1 else 0) * C' c j)) 0 := by
    refine HasDerivAt.fun_sum fun c hc' => ?_
    have hc' := mem_range.1 hc'
    have := (hc.bra c hc' i hi).mul (hc.ket c hc' j hj)
    rwa [hc.ket_zero c hc' j hj, hc.bra_zero c hc' i hi] at this
  have h2 : (fun t => ∑ c ∈ range x.l, (Ct t).get [i, c] * (C t).get [c, j]) =
      fun _ => if i = j then (1 : ℂ) else 0 := funext fun t => ho t i hi j hj
  rw [h2] at h1
  have h3 := h1.unique (hasDerivAt_const (0 : ℝ) (if i = j then (1 : ℂ) else 0))
  have e : ∑ c ∈ range x.l, (Ct' i c * (if c = j then 1 else 0) + (if i = c then 1 else 0) * C' c j) =
      Ct' i j + C' i j := by
    rw [sum_add_distrib]
    simp [lt_of_lt_of_le hi hle, lt_of_lt_of_le hj hle]
  rw [e] at h3
  exact eq_neg_of_add_eq_zero_left h3

/-- **C99** (Brillouin) If the Fock matrix has no elements between occupied and virtual orbitals, the reference
energy is stationary along every family of basis changes that keeps the occupied orbitals biorthonormal. -/
theorem C99_brillouin {w : World ℂ T} {s : ℕ} {x : Sys} {b : BasisSet ℂ} {C Ct : ℝ → NDArray ℂ}
    {C' Ct' : ℕ → ℕ → ℂ} {E : ℝ → ℂ} {U F : NDArray ℂ} (ok : SysOK w s x b) (hu : b.u = some U)
    (hE : ExchU x.l U) (hF : FockOf x b F)
    (h0 : ∀ i < x.n, ∀ a, x.n ≤ a → a < x.l → F.get [i, a] = 0 ∧ F.get [a, i] = 0)
    (hc : EnergyCurve w s x C Ct C' Ct' E) (ho : Biorthonormal x C Ct) : HasDerivAt E 0 0 := by
  have h := C99_gradient ok hu hE hF hc
  have hle := ok.size.le
  have e : ∑ i ∈ range x.n, ∑ c ∈ range x.l, (F.get [i, c] * C' c i + Ct' i c * F.get [c, i]) = 0 := by
    have e1 : ∀ i ∈ range x.n, ∑ c ∈ range x.l, (F.get [i, c] * C' c i + Ct' i c * F.get [c, i]) =
        ∑ j ∈ range x.n, (F.get [i, j] * C' j i - C' i j * F.get [j, i]) := by
      intro i hi
      have hi := mem_range.1 hi
      rw [← sum_subset (range_subset_range.2 hle) fun a ha hn => ?_]
      · refine sum_congr rfl fun j hj => ?_
        rw [biorthonormal_deriv hle hc ho hi (mem_range.1 hj)]
        ring
      · have := h0 i hi a (not_lt.1 fun h => hn (mem_range.2 h)) (mem_range.1 ha)
        rw [this.1, this.2]
        ring
    rw [sum_congr rfl e1]
    simp only [sum_sub_distrib]
    rw [sub_eq_zero, sum_comm]
    exact sum_congr rfl fun i _ => sum_congr rfl fun j _ => by ring
  rw [e, mul_zero] at h
  exact h

/-- `1 + t E_pq`, the matrix that adds `t` times function `p` to function `q`. -/
noncomputable def shear (l p q : ℕ) (t : ℂ) : NDArray ℂ :=
  ofFn .complex128 [l, l] fun i => (if i.getD 0 0 = i.getD 1 0 then 1 else 0)
    + if i.getD 0 0 = p ∧ i.getD 1 0 = q then t else 0

theorem shear_get {l p q : ℕ} {t : ℂ} {i j : ℕ} (hi : i < l) (hj : j < l) :
    (shear l p q t).get [i, j] = (if i = j then 1 else 0) + if i = p ∧ j = q then t else 0 := by
  rw [shear, ofFn_get_of (by exact ⟨hi, hj, trivial⟩)]
  rfl

/-- The family `1 + t E_pq` with its inverse. -/
theorem shear_curve {w : World ℂ T} {s : ℕ} {x : Sys} {b : BasisSet ℂ} (ok : SysOK w s x b)
    (hsp : SpinShaped b x.l) {p q : ℕ} (hpq : p ≠ q) :
    ∃ E, EnergyCurve w s x (fun t => shear x.l p q t) (fun t => shear x.l p q (-t))
        (fun c i => if c = p ∧ i = q then 1 else 0) (fun i c => -(if i = p ∧ c = q then 1 else 0)) E ∧
      Biorthonormal x (fun t => shear x.l p q t) (fun t => shear x.l p q (-t)) := by
  have hle := ok.size.le
  obtain ⟨H, hh, -⟩ := ok.wf.h
  obtain ⟨U, hu, -⟩ := ok.wf.u
  have hrun : ∀ t : ℝ, ∃ e : ℂ, ∃ w' w'' r,
      (World.changeBasis s (shear x.l p q t) (some (shear x.l p q (-t)))).run w = (.ok (), w') ∧
      (World.referenceEnergy s).run w' = (.ok r, w'') ∧ r.get [] = e := by
    intro t
    have run := World.changeBasis_sys_run (n := x.l) (C := shear x.l p q t) (Ct := some (shear x.l p q (-t))) ok hsp
      rfl rfl hle
    obtain ⟨r, h1, -, h3⟩ := C90_energy ok run hh hu
    exact ⟨_, _, _, r, run, h1, rfl⟩
  choose E hE using hrun
  refine ⟨E, ⟨fun c hc i hi => ?_, fun c hc i hi => ?_, fun c hc i hi => ?_, fun c hc i hi => ?_, hE⟩, ?_⟩
  · simp only [shear_get hc (lt_of_lt_of_le hi hle)]
    refine HasDerivAt.const_add _ ?_
    by_cases h : c = p ∧ i = q
    · simp only [h, and_self, if_true]
      exact Complex.ofRealCLM.hasDerivAt (x := (0 : ℝ))
    · simpa [h] using hasDerivAt_const (0 : ℝ) (0 : ℂ)
  · simp only [shear_get (lt_of_lt_of_le hi hle) hc]
    refine HasDerivAt.const_add _ ?_
    by_cases h : i = p ∧ c = q
    · simp only [h, and_self, if_true]
      exact (Complex.ofRealCLM.hasDerivAt (x := (0 : ℝ))).neg
    · simpa [h] using hasDerivAt_const (0 : ℝ) (0 : ℂ)
  · simp only [shear_get hc (lt_of_lt_of_le hi hle)]
    simp
  · simp only [shear_get (lt_of_lt_of_le hi hle) hc]
    simp
  · intro t i hi j hj
    have hi' := lt_of_lt_of_le hi hle
    have hj' := lt_of_lt_of_le hj hle
    rw [sum_congr rfl fun c hc => by rw [shear_get hi' (mem_range.1 hc), shear_get (mem_range.1 hc) hj']]
    have e : ∀ c ∈ range x.l, ((if i = c then (1 : ℂ) else 0) + if i = p ∧ c = q then -(t : ℂ) else 0) *
        ((if c = j then 1 else 0) + if c = p ∧ j = q then (t : ℂ) else 0) =
        (if i = c then ((if c = j then 1 else 0) + if c = p ∧ j = q then (t : ℂ) else 0) else 0)
          + (if j = c then (if i = p ∧ j = q then -(t : ℂ) else 0) else 0) := by
      intro c _
      have hqp := Ne.symm hpq
      by_cases h1 : i = c <;> by_cases h2 : c = j <;> by_cases h3 : i = p <;> by_cases h4 : c = q <;>
        by_cases h5 : c = p <;> by_cases h6 : j = q <;> simp_all <;> omega
    rw [sum_congr rfl e, sum_add_distrib, sum_ite_eq, sum_ite_eq, if_pos (mem_range.2 hi'), if_pos (mem_range.2 hj')]
    by_cases h : i = p ∧ j = q <;> simp [h]

/-- **C99** The reference energy is stationary along all such families exactly if the Fock matrix has no elements
between occupied and virtual orbitals. -/
theorem C99_stationary_iff {w : World ℂ T} {s : ℕ} {x : Sys} {b : BasisSet ℂ} {U F : NDArray ℂ}
    (ok : SysOK w s x b) (hsp : SpinShaped b x.l) (hu : b.u = some U) (hE : ExchU x.l U) (hF : FockOf x b F) :
    (∀ C Ct C' Ct' E, EnergyCurve w s x C Ct C' Ct' E → Biorthonormal x C Ct → HasDerivAt E 0 0) ↔
      ∀ i < x.n, ∀ a, x.n ≤ a → a < x.l → F.get [i, a] = 0 ∧ F.get [a, i] = 0 := by
  refine ⟨fun h i hi a ha hal => ?_, fun h C Ct C' Ct' E hc ho => C99_brillouin ok hu hE hF h hc ho⟩
  have hle := ok.size.le
  have hk : (perOrbital x.kind : ℂ) ≠ 0 := by cases x.kind <;> simp [perOrbital]
  have hil : i < x.l := lt_of_lt_of_le hi hle
  constructor
  · obtain ⟨E, hc, ho⟩ := shear_curve ok hsp (p := a) (q := i) (by omega)
    have h1 := (C99_gradient ok hu hE hF hc).unique (h _ _ _ _ E hc ho)
    rw [sum_eq_single i, sum_eq_single a] at h1
    · have : ¬ (i = a ∧ a = i) := by omega
      simpa [this, hk] using h1
    · intro c _ hca
      have : ¬ (i = a ∧ c = i) := by omega
      simp [hca, this]
    · exact fun h => absurd (mem_range.2 hal) h
    · intro j hj hji
      have hj := mem_range.1 hj
      refine sum_eq_zero fun c _ => ?_
      have : ¬ (j = a ∧ c = i) := by omega
      simp [hji, this]
    · exact fun h => absurd (mem_range.2 hi) h
  · obtain ⟨E, hc, ho⟩ := shear_curve ok hsp (p := i) (q := a) (by omega)
    have h1 := (C99_gradient ok hu hE hF hc).unique (h _ _ _ _ E hc ho)
    rw [sum_eq_single i, sum_eq_single a] at h1
    · have : ¬ (a = i ∧ i = a) := by omega
      simpa [this, hk] using h1
    · intro c _ hca
      have : ¬ (c = i ∧ i = a) := by omega
      simp [hca, this]
    · exact fun h => absurd (mem_range.2 hal) h
    · intro j hj hji
      have hj := mem_range.1 hj
      refine sum_eq_zero fun c _ => ?_
      have : ¬ (c = i ∧ j = a) := by omega
      simp [hji, this]
    · exact fun h => absurd (mem_range.2 hi) h

end QS.Props
