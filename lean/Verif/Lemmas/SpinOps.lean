import Verif.Lemmas.Pauli

/-! # The object left by `change_to_general_orbital_basis` (helper file, no property theorems) -/

set_option linter.unusedSimpArgs false

namespace QS

open Finset

variable {K : Type} [PyScalar K]

namespace BasisSet
open NDArray PyM

theorem idx_div {p a : ℕ} (ha : a < 2) : (2 * p + a) / 2 = p := by omega
theorem idx_mod {p a : ℕ} (ha : a < 2) : (2 * p + a) % 2 = a := by omega

theorem dbl1_isDoubled (x : NDArray K) (m n : ℕ) : IsDoubledOneBody m n x (dbl1 x m n) :=
  ⟨rfl, fun p hp q hq a ha b hb => by
    rw [dbl1_get (by omega) (by omega), idx_div ha, idx_div hb, idx_mod ha, idx_mod hb]⟩

theorem dbl2_isDoubled (x : NDArray K) (l : ℕ) : IsDoubledTwoBody l x (dbl2 x l) :=
  ⟨rfl, fun p hp q hq r hr s hs a ha b hb c hc d hd => by
    rw [dbl2_get (by omega) (by omega) (by omega) (by omega), idx_div ha, idx_div hb, idx_mod ha,
      idx_mod hb, idx_div hc, idx_div hd, idx_mod hc, idx_mod hd]⟩

theorem asym_dbl2_isDoubled (x : NDArray K) (l : ℕ) :
    IsDoubledAntiTwoBody l x (asym (dbl2 x l) (2 * l)) :=
  ⟨rfl, fun p hp q hq r hr s hs a ha b hb c hc d hd => by
    rw [asym_get (by omega) (by omega) (by omega) (by omega),
      dbl2_get (by omega) (by omega) (by omega) (by omega),
      dbl2_get (by omega) (by omega) (by omega) (by omega), idx_div ha, idx_div hb, idx_mod ha,
      idx_mod hb, idx_div hc, idx_div hd, idx_mod hc, idx_mod hd]⟩

theorem asym_isAnti (x : NDArray K) (l : ℕ) : IsAntiSymmetrised l x (asym x l) :=
  ⟨rfl, fun _ hp _ hq _ hr _ hs => asym_get hp hq hr hs⟩

theorem dblDip_isDoubled (x : NDArray K) (dim l : ℕ) : IsDoubledDipole dim l x (dblDip x dim l) :=
  ⟨rfl, fun i hi p hp q hq a ha b hb => by
    rw [dblDip_get hi (by omega) (by omega), idx_div ha, idx_div hb, idx_mod ha, idx_mod hb]⟩

theorem dblSpf_isDoubled (x : NDArray K) (l : ℕ) : IsDoubledSpf l x (dblSpf x l) :=
  ⟨rfl, fun p hp a ha g hg => by rw [dblSpf_get (by omega) hg, idx_div ha]⟩

theorem ip_eq (x₀ x₁ y₀ y₁ : K) : ip x₀ x₁ y₀ y₁ = spinor x₀ x₁ y₀ y₁ := rfl

/-- The object after the doubling is what the specification says. -/
theorem general_isGeneral {b : BasisSet K} {l : ℕ} {ov : NDArray K} (a₀ a₁ b₀ b₁ : K) (anti : Bool)
    (hb : WellFormed b l) (hs : b.s = some ov) :
    GeneralOf b (general b l ov a₀ a₁ b₀ b₁ anti) l anti := by
  obtain ⟨h, hh, hhs⟩ := hb.h
  obtain ⟨u, hu, hus⟩ := hb.u
  have hbra : ∀ b₃ : BasisSet K, OptRel (IsDoubledSpf l) b.bra
      (casted { b₃ with
        dipole := b.dipole.map fun x => dblDip x b.dim l
        spf := b.spf.map fun x => dblSpf x l
        braSpf := b.braSpf.map fun x => dblSpf x l }).bra := by
    intro b₃
    rcases hx : b.spf with _ | x
    · have := hb.braNeedsSpf hx
      simp [bra, casted, hx, this, OptRel]
    · rcases hy : b.braSpf with _ | y
      · simp only [bra, casted, hx, hy, Option.map_some, Option.map_none, OptRel]
        refine ⟨rfl, fun p hp a ha g hg => ?_⟩
        have hg' : InRange x.shape.tail g := hg
        rw [toComplex_get, conj_get, conj_get, dblSpf_get (by omega) hg', idx_div ha]
      · simp only [bra, casted, hx, hy, Option.map_some, OptRel]
        exact dblSpf_isDoubled y l
  have hspf : ∀ b₃ : BasisSet K, OptRel (IsDoubledSpf l) b.spf
      (casted { b₃ with
        dipole := b.dipole.map fun x => dblDip x b.dim l
        spf := b.spf.map fun x => dblSpf x l
        braSpf := b.braSpf.map fun x => dblSpf x l }).spf := by
    intro b₃
    rcases hx : b.spf with _ | x
    · simp [casted, OptRel]
    · exact dblSpf_isDoubled x l
  have hdip : ∀ b₃ : BasisSet K, OptRel (IsDoubledDipole b.dim l) b.dipole
      (casted { b₃ with
        dipole := b.dipole.map fun x => dblDip x b.dim l
        spf := b.spf.map fun x => dblSpf x l
        braSpf := b.braSpf.map fun x => dblSpf x l }).dipole := by
    intro b₃
    rcases hx : b.dipole with _ | x
    · simp [casted, OptRel]
    · exact dblDip_isDoubled x b.dim l
  cases anti with
  | false =>
    simp only [general, Bool.false_eq_true, if_false]
    refine ⟨rfl, rfl, ?_, ?_, ?_, ?_, hdip b, hspf b, hbra b, rfl, rfl, rfl, rfl⟩
    · simp only [casted, withSpin, hh]; exact dbl1_isDoubled h l l
    · simp only [casted, withSpin, hs]; exact dbl1_isDoubled ov l l
    · simp only [casted, withSpin, hu, Bool.false_eq_true, false_and, if_false]
      exact dbl2_isDoubled u l
    · simp [casted, withSpin]
  | true =>
    cases hanti : b.antiSym with
    | true =>
      simp only [general, if_true, antiSymmed, withSpin, hanti]
      refine ⟨rfl, rfl, ?_, ?_, ?_, ?_, hdip b, hspf b, hbra b, rfl, rfl, rfl, rfl⟩
      · simp only [casted, hh]; exact dbl1_isDoubled h l l
      · simp only [casted, hs]; exact dbl1_isDoubled ov l l
      · simp only [casted, hu, hanti, Bool.true_eq_false, and_false, if_false]
        exact dbl2_isDoubled u l
      · simp [casted]
    | false =>
      simp only [general, if_true, antiSymmed, withSpin, hanti, Bool.false_eq_true, if_false]
      refine ⟨rfl, rfl, ?_, ?_, ?_, ?_, hdip b, hspf b, hbra b, rfl, rfl, rfl, rfl⟩
      · simp only [casted, hh]; exact dbl1_isDoubled h l l
      · simp only [casted, hs]; exact dbl1_isDoubled ov l l
      · simp only [casted, hu, hanti, and_self, if_true]
        exact asym_dbl2_isDoubled u l
      · simp [casted]

/-- The object after the doubling is well formed again. -/
theorem general_wellFormed {b : BasisSet K} {l : ℕ} {ov : NDArray K} (a₀ a₁ b₀ b₁ : K)
    (anti : Bool) (hb : WellFormed b l) :
    WellFormed (general b l ov a₀ a₁ b₀ b₁ anti) (2 * l) ∧
    SpinShaped (general b l ov a₀ a₁ b₀ b₁ anti) (2 * l) := by
  obtain ⟨h, hh, hhs⟩ := hb.h
  obtain ⟨u, hu, hus⟩ := hb.u
  obtain ⟨np, hnp⟩ := hb.np
  have hspf : ∀ x, b.spf.map (fun x => dblSpf x l) = some x →
      ∃ g, x.shape = 2 * l :: g ∧ g.length = b.dim := by
    intro x hx
    obtain ⟨y, hy, rfl⟩ := Option.map_eq_some_iff.1 hx
    obtain ⟨g, hg, hg'⟩ := hb.spf y hy
    exact ⟨g, by simp [dblSpf, hg], hg'⟩
  have hbra : ∀ x, b.braSpf.map (fun x => dblSpf x l) = some x →
      ∃ g, x.shape = 2 * l :: g ∧ g.length = b.dim := by
    intro x hx
    obtain ⟨y, hy, rfl⟩ := Option.map_eq_some_iff.1 hx
    obtain ⟨g, hg, hg'⟩ := hb.bra y hy
    exact ⟨g, by simp [dblSpf, hg], hg'⟩
  have main : ∀ b₃ : BasisSet K, b₃.l = 2 * l → b₃.np = some np →
      (∃ x, b₃.h = some x ∧ x.shape = [2 * l, 2 * l]) →
      (∃ x, b₃.u = some x ∧ x.shape = [2 * l, 2 * l, 2 * l, 2 * l]) →
      (∀ x, b₃.s = some x → x.shape = [2 * l, 2 * l]) →
      (∀ x, b₃.spin2tb = some x → x.shape = [2 * l, 2 * l, 2 * l, 2 * l] ∧ b₃.includesSpin = true) →
      b₃.dim = b.dim → SpinShaped b₃ (2 * l) →
      WellFormed (casted { b₃ with
        dipole := b.dipole.map fun x => dblDip x b.dim l
        spf := b.spf.map fun x => dblSpf x l
        braSpf := b.braSpf.map fun x => dblSpf x l }) (2 * l) ∧
      SpinShaped (casted { b₃ with
        dipole := b.dipole.map fun x => dblDip x b.dim l
        spf := b.spf.map fun x => dblSpf x l
        braSpf := b.braSpf.map fun x => dblSpf x l }) (2 * l) := by
    rintro b₃ h1 h2 ⟨x3, h3, h3'⟩ ⟨x4, h4, h4'⟩ h5 h6 h7 h8
    refine ⟨⟨h1, ⟨np, h2⟩, ⟨x3.toComplex, by simp [casted, h3], h3'⟩,
      ⟨x4.toComplex, by simp [casted, h4], h4'⟩, ?_, ?_, ?_, ?_, ?_, ?_⟩, ⟨?_, ?_, ?_, ?_⟩⟩
    · intro x hx
      obtain ⟨y, hy, rfl⟩ := Option.map_eq_some_iff.1 hx
      exact h5 y hy
    · intro x hx
      obtain ⟨y, hy, rfl⟩ := Option.map_eq_some_iff.1 hx
      obtain ⟨z, hz, rfl⟩ := Option.map_eq_some_iff.1 hy
      exact ⟨by simpa [casted, h7] using (hb.dipole z hz).1, by simp [casted, dblDip, h7]⟩
    · intro x hx
      obtain ⟨y, hy, rfl⟩ := Option.map_eq_some_iff.1 hx
      obtain ⟨g, hg, hg'⟩ := hspf y hy
      exact ⟨g, hg, hg'.trans h7.symm⟩
    · intro x hx
      obtain ⟨y, hy, rfl⟩ := Option.map_eq_some_iff.1 hx
      simp only [bra] at hy
      rcases hz : b.braSpf with _ | z
      · rw [hz] at hy
        simp only [Option.map_none] at hy
        obtain ⟨w, hw, rfl⟩ := Option.map_eq_some_iff.1 hy
        obtain ⟨g, hg, hg'⟩ := hspf w hw
        exact ⟨g, hg, hg'.trans h7.symm⟩
      · rw [hz] at hy
        simp only [Option.map_some, Option.some.injEq] at hy
        obtain ⟨g, hg, hg'⟩ := hbra y (by rw [hz, ← hy]; rfl)
        exact ⟨g, hg, hg'.trans h7.symm⟩
    · intro hx
      have hx' : b.spf = none := by simpa [casted] using hx
      have := hb.braNeedsSpf hx'
      simp [casted, bra, hx', this]
    · intro x hx
      obtain ⟨y, hy, rfl⟩ := Option.map_eq_some_iff.1 hx
      exact h6 y hy
    all_goals
      intro x hx
      obtain ⟨y, hy, rfl⟩ := Option.map_eq_some_iff.1 hx
    · exact h8.x y hy
    · exact h8.y y hy
    · exact h8.z y hy
    · exact h8.two y hy
  have hsp : ∀ b₄ : BasisSet K, ∀ s, SpinShaped (withSpin b₄ ov s a₀ a₁ b₀ b₁ l) (2 * l) := by
    intro b₄ s
    constructor <;> rintro m ⟨⟩ <;> rfl
  have hs' : ∀ x, b.s.map (fun x => dbl1 x l l) = some x → x.shape = [2 * l, 2 * l] := by
    intro x hx
    obtain ⟨y, hy, rfl⟩ := Option.map_eq_some_iff.1 hx
    rfl
  cases anti with
  | false =>
    simp only [general, Bool.false_eq_true, if_false]
    exact main _ rfl hnp ⟨_, by simp [withSpin, hh]; rfl, rfl⟩ ⟨_, by simp [withSpin, hu]; rfl, rfl⟩
      hs' (by rintro x ⟨⟩; exact ⟨rfl, rfl⟩) rfl (hsp _ _)
  | true =>
    simp only [general, if_true, antiSymmed]
    split_ifs with hanti
    · exact main _ rfl hnp ⟨_, by simp [withSpin, hh]; rfl, rfl⟩ ⟨_, by simp [withSpin, hu]; rfl, rfl⟩
        hs' (by rintro x ⟨⟩; exact ⟨rfl, rfl⟩) rfl (hsp _ _)
    · refine main _ rfl hnp ⟨_, by simp [withSpin, hh]; rfl, rfl⟩
        ⟨_, by simp [withSpin, hu]; rfl, rfl⟩ hs' (by rintro x ⟨⟩; exact ⟨rfl, rfl⟩) rfl
        (by constructor <;> rintro m ⟨⟩ <;> rfl)

/-! ### rejection -/

theorem setupSpin_rejects {b : BasisSet K} {np : Module} {ov : NDArray K} {a₀ a₁ b₀ b₁ : K}
    (hnp : b.np = some np)
    (h : ¬ (PyScalar.small (ip a₀ a₁ a₀ a₁ - 1) = true ∧ PyScalar.small (ip b₀ b₁ b₀ b₁ - 1) = true ∧
      PyScalar.small (ip a₀ a₁ b₀ b₁) = true)) :
    ((setupSpin ov [a₀, a₁] [b₀, b₁]).run b).1 = .error .assertion := by
  simp only [setupSpin, PyM.run_bind, run_get, run_liftM, hnp, needNp, run_modify, checkOverlap_eq,
    run_assert, sub_zero]
  cases h1 : PyScalar.small (ip a₀ a₁ a₀ a₁ - 1) <;> simp only [Bool.false_eq_true, if_false, if_true]
  cases h2 : PyScalar.small (ip b₀ b₁ b₀ b₁ - 1) <;> simp only [Bool.false_eq_true, if_false, if_true]
  cases h3 : PyScalar.small (ip a₀ a₁ b₀ b₁) <;> simp only [Bool.false_eq_true, if_false, if_true]
  exact absurd ⟨h1, h2, h3⟩ h

/-- A pair of spinors that fails the orthonormality test is rejected. -/
theorem changeToGeneralBase_rejects {b : BasisSet K} {ov : NDArray K} {l : ℕ} {a₀ a₁ b₀ b₁ : K}
    {anti : Bool} (hb : WellFormed b l) (hsp : b.includesSpin = false) (hs : b.s = some ov)
    (h : ¬ (PyScalar.small (ip a₀ a₁ a₀ a₁ - 1) = true ∧ PyScalar.small (ip b₀ b₁ b₀ b₁ - 1) = true ∧
      PyScalar.small (ip a₀ a₁ b₀ b₁) = true)) :
    ((changeToGeneralBase [a₀, a₁] [b₀, b₁] anti).run b).1 = .error .assertion := by
  obtain ⟨np, hnp⟩ := hb.np
  obtain ⟨x, hh, hhs⟩ := hb.h
  obtain ⟨u, hu, hus⟩ := hb.u
  have hl := hb.l_eq
  have hovs := hb.s ov hs
  unfold changeToGeneralBase
  simp only [PyM.run_bind, run_get, hsp, Bool.false_eq_true, if_false, run_modify, run_liftM, hs,
    orErr, hnp, hh]
  rw [addSpinOneBody_eq hhs]
  simp only [hl]
  rw [setH_run (by exact axesOk_two rfl)]
  simp only [run_get, run_liftM, hs, hnp]
  rw [addSpinOneBody_eq hovs]
  simp only
  rw [setS_run (by exact axesOk_two rfl)]
  simp only [run_get, run_liftM, hu, hnp]
  rw [addSpinTwoBody_eq hus]
  simp only
  rw [setU_run (by exact axesOk_four rfl)]
  simp only [run_get]
  rw [if_pos (by
    rintro ⟨_, h2⟩
    simp [uRepr, ndim, dbl2] at h2)]
  rw [PyM.run_bind]
  have key := setupSpin_rejects (b := { b with
    np := some np, l := 2 * l, h := some (dbl1 x l l), s := some (dbl1 ov l l),
    u := some (dbl2 u l), includesSpin := true }) (ov := ov) rfl h
  rcases hr : (setupSpin ov [a₀, a₁] [b₀, b₁]).run { b with
    np := some np, l := 2 * l, h := some (dbl1 x l l), s := some (dbl1 ov l l),
    u := some (dbl2 u l), includesSpin := true } with ⟨_ | _, s'⟩
  · rw [hr] at key; simpa using key
  · rw [hr] at key; simp at key

theorem changeToGeneralBase_needs_s {b : BasisSet K} {a c : List K} {anti : Bool}
    (hsp : b.includesSpin = false) (hs : b.s = none) :
    ((changeToGeneralBase a c anti).run b).1 = .error .attribute := by
  unfold changeToGeneralBase
  simp only [PyM.run_bind, run_get, hsp, Bool.false_eq_true, if_false, run_modify, run_liftM, hs,
    orErr]

theorem changeToGeneralBase_inv {b b' : BasisSet K} {l : ℕ} {a₀ a₁ b₀ b₁ : K} {r anti : Bool}
    (hb : WellFormed b l) (hsp : b.includesSpin = false)
    (h : (changeToGeneralBase [a₀, a₁] [b₀, b₁] anti).run b = (.ok r, b')) :
    ∃ ov, b.s = some ov ∧ r = true ∧ b' = general b l ov a₀ a₁ b₀ b₁ anti := by
  rcases hs : b.s with _ | ov
  · have := changeToGeneralBase_needs_s (a := [a₀, a₁]) (c := [b₀, b₁]) (anti := anti) hsp hs
    rw [h] at this; simp at this
  · by_cases hc : PyScalar.small (ip a₀ a₁ a₀ a₁ - 1) = true ∧
      PyScalar.small (ip b₀ b₁ b₀ b₁ - 1) = true ∧ PyScalar.small (ip a₀ a₁ b₀ b₁) = true
    · rw [changeToGeneralBase_run hb hsp hs hc.1 hc.2.1 hc.2.2] at h
      simp only [Prod.mk.injEq, Except.ok.injEq] at h
      exact ⟨ov, rfl, h.1.symm, h.2.symm⟩
    · have := changeToGeneralBase_rejects (anti := anti) hb hsp hs hc
      rw [h] at this; simp at this

theorem small_of_ortho {a₀ a₁ b₀ b₁ : K} (h : OrthoSpin a₀ a₁ b₀ b₁) :
    PyScalar.small (ip a₀ a₁ a₀ a₁ - 1) = true ∧ PyScalar.small (ip b₀ b₁ b₀ b₁ - 1) = true ∧
      PyScalar.small (ip a₀ a₁ b₀ b₁) = true := by
  simp only [ip_eq, h.aa, h.bb, h.ab, sub_self, PyScalar.small_zero, and_self]

/-! ### the installed spin matrices -/

theorem general_spin {b : BasisSet K} {l : ℕ} {ov : NDArray K} (a₀ a₁ b₀ b₁ : K) (anti : Bool) :
    let g := general b l ov a₀ a₁ b₀ b₁ anti
    g.spinX = some (spinArr ov (pauliOf a₀ a₁ b₀ b₁ sigmaXMat) l).toComplex ∧
    g.spinY = some (spinArr ov (pauliOf a₀ a₁ b₀ b₁ sigmaYMat) l).toComplex ∧
    g.spinZ = some (spinArr ov (pauliOf a₀ a₁ b₀ b₁ sigmaZMat) l).toComplex ∧
    g.spin2 = some (spin2Arr (spinArr ov (pauliOf a₀ a₁ b₀ b₁ sigmaXMat) l)
      (spinArr ov (pauliOf a₀ a₁ b₀ b₁ sigmaYMat) l) (spinArr ov (pauliOf a₀ a₁ b₀ b₁ sigmaZMat) l)
      (dbl1 ov l l) (2 * l)).toComplex := by
  cases anti <;> simp only [general, Bool.false_eq_true, if_false, if_true, antiSymmed]
  · exact ⟨rfl, rfl, rfl, rfl⟩
  · split_ifs <;> exact ⟨rfl, rfl, rfl, rfl⟩

theorem general_spin2tb {b : BasisSet K} {l : ℕ} {ov : NDArray K} (a₀ a₁ b₀ b₁ : K) :
    (general b l ov a₀ a₁ b₀ b₁ false).spin2tb =
      some (spin2tbArr (spinArr ov (pauliOf a₀ a₁ b₀ b₁ sigmaXMat) l)
        (spinArr ov (pauliOf a₀ a₁ b₀ b₁ sigmaYMat) l)
        (spinArr ov (pauliOf a₀ a₁ b₀ b₁ sigmaZMat) l) (2 * l)).toComplex ∧
    (b.antiSym = false → (general b l ov a₀ a₁ b₀ b₁ true).spin2tb =
      some (asym (spin2tbArr (spinArr ov (pauliOf a₀ a₁ b₀ b₁ sigmaXMat) l)
        (spinArr ov (pauliOf a₀ a₁ b₀ b₁ sigmaYMat) l)
        (spinArr ov (pauliOf a₀ a₁ b₀ b₁ sigmaZMat) l) (2 * l)) (2 * l)).toComplex) := by
  refine ⟨rfl, fun h => ?_⟩
  simp only [general, if_true, antiSymmed, withSpin, h, Bool.false_eq_true, if_false, casted,
    Option.map_some]

theorem spin_mulAt {ov σ τ : NDArray K} {l p q : ℕ} (hp : p < 2 * l) (hq : q < 2 * l) :
    mulAt (2 * l) (spinArr ov σ l) (spinArr ov τ l) p q =
      1 / 4 * (mulAt l ov ov (p / 2) (q / 2) * mulAt 2 σ τ (p % 2) (q % 2)) := by
  unfold mulAt
  rw [← kron_mul ov.get ov.get σ.get τ.get l p q, mul_sum]
  refine sum_congr rfl fun t ht => ?_
  rw [spinArr_get hp (mem_range.1 ht), spinArr_get (mem_range.1 ht) hq]
  ring

theorem sigma_xy {a₀ a₁ b₀ b₁ : K} (h : OrthoSpin a₀ a₁ b₀ b₁) {p q : ℕ} (hp : p < 2) (hq : q < 2) :
    mulAt 2 (pauliOf a₀ a₁ b₀ b₁ sigmaXMat) (pauliOf a₀ a₁ b₀ b₁ sigmaYMat) p q =
      PyScalar.I * (pauliOf a₀ a₁ b₀ b₁ sigmaZMat).get [p, q] := by
  rw [sigmaXMat, sigmaYMat, sigmaZMat, pauliOf_mul h _ _ _ _ _ _ _ _ hp hq,
    ← pauliOf_smul _ _ _ _ _ _ _ _ _ hp hq]
  congr 3 <;> ring
theorem sigma_yx {a₀ a₁ b₀ b₁ : K} (h : OrthoSpin a₀ a₁ b₀ b₁) {p q : ℕ} (hp : p < 2) (hq : q < 2) :
    mulAt 2 (pauliOf a₀ a₁ b₀ b₁ sigmaYMat) (pauliOf a₀ a₁ b₀ b₁ sigmaXMat) p q =
      -PyScalar.I * (pauliOf a₀ a₁ b₀ b₁ sigmaZMat).get [p, q] := by
  rw [sigmaXMat, sigmaYMat, sigmaZMat, pauliOf_mul h _ _ _ _ _ _ _ _ hp hq,
    ← pauliOf_smul _ _ _ _ _ _ _ _ _ hp hq]
  congr 3 <;> ring
theorem sigma_yz {a₀ a₁ b₀ b₁ : K} (h : OrthoSpin a₀ a₁ b₀ b₁) {p q : ℕ} (hp : p < 2) (hq : q < 2) :
    mulAt 2 (pauliOf a₀ a₁ b₀ b₁ sigmaYMat) (pauliOf a₀ a₁ b₀ b₁ sigmaZMat) p q =
      PyScalar.I * (pauliOf a₀ a₁ b₀ b₁ sigmaXMat).get [p, q] := by
  rw [sigmaXMat, sigmaYMat, sigmaZMat, pauliOf_mul h _ _ _ _ _ _ _ _ hp hq,
    ← pauliOf_smul _ _ _ _ _ _ _ _ _ hp hq]
  congr 3 <;> ring
theorem sigma_zy {a₀ a₁ b₀ b₁ : K} (h : OrthoSpin a₀ a₁ b₀ b₁) {p q : ℕ} (hp : p < 2) (hq : q < 2) :
    mulAt 2 (pauliOf a₀ a₁ b₀ b₁ sigmaZMat) (pauliOf a₀ a₁ b₀ b₁ sigmaYMat) p q =
      -PyScalar.I * (pauliOf a₀ a₁ b₀ b₁ sigmaXMat).get [p, q] := by
  rw [sigmaXMat, sigmaYMat, sigmaZMat, pauliOf_mul h _ _ _ _ _ _ _ _ hp hq,
    ← pauliOf_smul _ _ _ _ _ _ _ _ _ hp hq]
  congr 3 <;> ring
theorem I_neg : -(PyScalar.I : K) * PyScalar.I = 1 := by
  have := PyScalar.I_mul_I (K := K)
  linear_combination -this
theorem sigma_zx {a₀ a₁ b₀ b₁ : K} (h : OrthoSpin a₀ a₁ b₀ b₁) {p q : ℕ} (hp : p < 2) (hq : q < 2) :
    mulAt 2 (pauliOf a₀ a₁ b₀ b₁ sigmaZMat) (pauliOf a₀ a₁ b₀ b₁ sigmaXMat) p q =
      PyScalar.I * (pauliOf a₀ a₁ b₀ b₁ sigmaYMat).get [p, q] := by
  have := PyScalar.I_mul_I (K := K)
  rw [sigmaXMat, sigmaYMat, sigmaZMat, pauliOf_mul h _ _ _ _ _ _ _ _ hp hq,
    ← pauliOf_smul _ _ _ _ _ _ _ _ _ hp hq]
  congr 3
  · ring
  · linear_combination this
  · linear_combination -this
  · ring
theorem sigma_xz {a₀ a₁ b₀ b₁ : K} (h : OrthoSpin a₀ a₁ b₀ b₁) {p q : ℕ} (hp : p < 2) (hq : q < 2) :
    mulAt 2 (pauliOf a₀ a₁ b₀ b₁ sigmaXMat) (pauliOf a₀ a₁ b₀ b₁ sigmaZMat) p q =
      -PyScalar.I * (pauliOf a₀ a₁ b₀ b₁ sigmaYMat).get [p, q] := by
  have := PyScalar.I_mul_I (K := K)
  rw [sigmaXMat, sigmaYMat, sigmaZMat, pauliOf_mul h _ _ _ _ _ _ _ _ hp hq,
    ← pauliOf_smul _ _ _ _ _ _ _ _ _ hp hq]
  congr 3
  · ring
  · linear_combination -this
  · linear_combination this
  · ring
theorem sigma_xx {a₀ a₁ b₀ b₁ : K} (h : OrthoSpin a₀ a₁ b₀ b₁) {p q : ℕ} (hp : p < 2) (hq : q < 2) :
    mulAt 2 (pauliOf a₀ a₁ b₀ b₁ sigmaXMat) (pauliOf a₀ a₁ b₀ b₁ sigmaXMat) p q = kd p q := by
  rw [← pauliOf_one h hp hq, sigmaXMat, pauliOf_mul h _ _ _ _ _ _ _ _ hp hq]
  congr 3 <;> ring
theorem sigma_yy {a₀ a₁ b₀ b₁ : K} (h : OrthoSpin a₀ a₁ b₀ b₁) {p q : ℕ} (hp : p < 2) (hq : q < 2) :
    mulAt 2 (pauliOf a₀ a₁ b₀ b₁ sigmaYMat) (pauliOf a₀ a₁ b₀ b₁ sigmaYMat) p q = kd p q := by
  have := PyScalar.I_mul_I (K := K)
  rw [← pauliOf_one h hp hq, sigmaYMat, pauliOf_mul h _ _ _ _ _ _ _ _ hp hq]
  congr 3
  · linear_combination -this
  · ring
  · ring
  · linear_combination -this
theorem sigma_zz {a₀ a₁ b₀ b₁ : K} (h : OrthoSpin a₀ a₁ b₀ b₁) {p q : ℕ} (hp : p < 2) (hq : q < 2) :
    mulAt 2 (pauliOf a₀ a₁ b₀ b₁ sigmaZMat) (pauliOf a₀ a₁ b₀ b₁ sigmaZMat) p q = kd p q := by
  rw [← pauliOf_one h hp hq, sigmaZMat, pauliOf_mul h _ _ _ _ _ _ _ _ hp hq]
  congr 3 <;> ring

/-- The three Pauli matrices. -/
def IsSigma (m : NDArray K) : Prop := m = sigmaXMat ∨ m = sigmaYMat ∨ m = sigmaZMat

theorem sigma_sq {a₀ a₁ b₀ b₁ : K} {m : NDArray K} (hm : IsSigma m) (h : OrthoSpin a₀ a₁ b₀ b₁)
    {p q : ℕ} (hp : p < 2) (hq : q < 2) :
    mulAt 2 (pauliOf a₀ a₁ b₀ b₁ m) (pauliOf a₀ a₁ b₀ b₁ m) p q = kd p q := by
  rcases hm with rfl | rfl | rfl
  · exact sigma_xx h hp hq
  · exact sigma_yy h hp hq
  · exact sigma_zz h hp hq

theorem sigma_herm {a₀ a₁ b₀ b₁ : K} {m : NDArray K} (hm : IsSigma m) {p q : ℕ} (hp : p < 2)
    (hq : q < 2) :
    (pauliOf a₀ a₁ b₀ b₁ m).get [p, q] = star ((pauliOf a₀ a₁ b₀ b₁ m).get [q, p]) := by
  rcases hm with rfl | rfl | rfl
  · rw [sigmaXMat, pauliOf_star _ _ _ _ _ _ _ _ hp hq]; simp
  · rw [sigmaYMat, pauliOf_star _ _ _ _ _ _ _ _ hp hq]; simp
  · rw [sigmaZMat, pauliOf_star _ _ _ _ _ _ _ _ hp hq]; simp

theorem sigma_trace {a₀ a₁ b₀ b₁ : K} {m : NDArray K} (hm : IsSigma m)
    (h : OrthoSpin a₀ a₁ b₀ b₁) :
    (pauliOf a₀ a₁ b₀ b₁ m).get [0, 0] + (pauliOf a₀ a₁ b₀ b₁ m).get [1, 1] = 0 := by
  rcases hm with rfl | rfl | rfl
  · rw [sigmaXMat, pauliOf_trace h]; ring
  · rw [sigmaYMat, pauliOf_trace h]; ring
  · rw [sigmaZMat, pauliOf_trace h]; ring

theorem mulAt_id {ov : NDArray K} {l p q : ℕ} (hov : ∀ p < l, ∀ q < l, ov.get [p, q] = kd p q)
    (hp : p < l) (hq : q < l) : mulAt l ov ov p q = kd p q := by
  unfold mulAt
  rw [sum_eq_single p]
  · rw [hov p hp p hp, hov p hp q hq]; simp [kd]
  · intro t ht hne
    rw [hov p hp t (mem_range.1 ht)]; simp [kd, Ne.symm hne]
  · intro hn; exact absurd (mem_range.2 hp) hn

theorem kd_split (p q : ℕ) : (kd (p / 2) (q / 2) : K) * kd (p % 2) (q % 2) = kd p q := by
  simp only [kd]
  by_cases h : p = q
  · simp [h]
  · by_cases h1 : p / 2 = q / 2
    · have : p % 2 ≠ q % 2 := by omega
      simp [h, this]
    · simp [h, h1]

/-- `S_i S_i = 1/4` for an orthonormal basis, and `[S_i, S_j]` from the Pauli algebra. -/
theorem spin_sq {ov : NDArray K} {l : ℕ} {a₀ a₁ b₀ b₁ : K} {m : NDArray K} (hm : IsSigma m)
    (h : OrthoSpin a₀ a₁ b₀ b₁) (hov : ∀ p < l, ∀ q < l, ov.get [p, q] = kd p q) {p q : ℕ}
    (hp : p < 2 * l) (hq : q < 2 * l) :
    mulAt (2 * l) (spinArr ov (pauliOf a₀ a₁ b₀ b₁ m) l) (spinArr ov (pauliOf a₀ a₁ b₀ b₁ m) l) p q =
      1 / 4 * kd p q := by
  rw [spin_mulAt hp hq, mulAt_id hov (by omega) (by omega), sigma_sq hm h (by omega) (by omega),
    kd_split]

theorem spin_comm {ov : NDArray K} {l : ℕ} {x y z : NDArray K}
    (hov : ∀ p < l, ∀ q < l, ov.get [p, q] = kd p q)
    (hxy : ∀ p < 2, ∀ q < 2, mulAt 2 x y p q = PyScalar.I * z.get [p, q])
    (hyx : ∀ p < 2, ∀ q < 2, mulAt 2 y x p q = -PyScalar.I * z.get [p, q]) {p q : ℕ}
    (hp : p < 2 * l) (hq : q < 2 * l) :
    mulAt (2 * l) (spinArr ov x l) (spinArr ov y l) p q -
      mulAt (2 * l) (spinArr ov y l) (spinArr ov x l) p q =
      PyScalar.I * (spinArr ov z l).get [p, q] := by
  rw [spin_mulAt hp hq, spin_mulAt hp hq, mulAt_id hov (by omega) (by omega),
    hxy _ (by omega) _ (by omega), hyx _ (by omega) _ (by omega), spinArr_get hp hq,
    hov _ (by omega) _ (by omega)]
  ring

/-- `s S s` for spin matrices and any overlap. -/
theorem sandwich_spin {ov σ : NDArray K} {l p q : ℕ} (hp : p < 2 * l) (hq : q < 2 * l) :
    sandwichArr (spinArr ov σ l) (dbl1 ov l l) (2 * l) p q =
      1 / 4 * ((∑ k ∈ range l, mulAt l ov ov (p / 2) k * ov.get [k, q / 2]) *
        mulAt 2 σ σ (p % 2) (q % 2)) := by
  unfold sandwichArr mulAt
  rw [← kron_mul (fun i => match i with
      | [p, k] => ∑ t ∈ range l, ov.get [p, t] * ov.get [t, k]
      | _ => 0) ov.get σ.get σ.get l p q, mul_sum]
  refine sum_congr rfl fun t ht => ?_
  have ht' := mem_range.1 ht
  rw [spinArr_get ht' hq]
  have : ∑ r ∈ range (2 * l), (spinArr ov σ l).get [p, r] * (dbl1 ov l l).get [r, t] =
      1 / 2 * ((∑ k ∈ range l, ov.get [p / 2, k] * ov.get [k, t / 2]) * σ.get [p % 2, t % 2]) := by
    have e := kron_mul ov.get ov.get σ.get (fun i => match i with
      | [a, b] => if a = b then (1 : K) else 0
      | _ => 0) l p t
    have e2 : ∑ c ∈ range 2, σ.get [p % 2, c] * (if c = t % 2 then (1 : K) else 0) =
        σ.get [p % 2, t % 2] := by
      have : t % 2 < 2 := by omega
      simp [this]
    simp only at e
    rw [e2] at e
    rw [← e, mul_sum]
    refine sum_congr rfl fun r hr => ?_
    have hr' := mem_range.1 hr
    rw [spinArr_get hp hr', dbl1_get hr' ht']
    split_ifs <;> ring
  rw [this]
  ring

end BasisSet

end QS
