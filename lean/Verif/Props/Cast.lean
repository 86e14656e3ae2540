import Verif.Spec.Cast
import Verif.Spec.Demo
import Verif.Lemmas.General

/-!
# Complex cast and module change (C66)
-/

namespace QS.Props

open NDArray BasisSet PyM Spec

variable {K : Type} [PyScalar K]

theorem sameOpt_refl (x : Option (NDArray K)) : SameOpt x x := by
  cases x
  · trivial
  · exact ⟨rfl, fun _ => rfl⟩

theorem sameOpt_toComplex (x : Option (NDArray K)) : SameOpt x (x.map toComplex) := by
  cases x
  · trivial
  · exact ⟨rfl, fun _ => rfl⟩

theorem complexOpt_toComplex (x : Option (NDArray K)) : ComplexOpt (x.map toComplex) := by
  cases x
  · intro y h; cases h
  · intro y h
    obtain rfl := Option.some.inj h
    rfl

/-- **C66** as stated, with "every populated array" read as: all arrays of the object, the grid included. -/
def C66_statement : Prop :=
  ∀ (b b' : BasisSet ℂ), (castToComplex).run b = (.ok (), b') →
    SameContents b b' ∧ AllComplex b' ∧ ComplexOpt b'.grid

/-- **C66** in the literal sense is false: the grid stays real. -/
theorem C66_false : ¬ C66_statement := by
  intro h
  have h1 := (h { BasisSet.init 1 1 with grid := some (zeros .float64 [1]) } _
    (castToComplex_run (np := 0) rfl)).2.2 (zeros .float64 [1])
  have : casted { (BasisSet.init 1 1 : BasisSet ℂ) with grid := some (zeros .float64 [1]) } =
    { (BasisSet.init 1 1 : BasisSet ℂ) with grid := some (zeros .float64 [1]) } := by
    simp [casted, BasisSet.bra, BasisSet.init]
  rw [this] at h1
  have := h1 rfl
  simp [zeros] at this

theorem casted_bra (b : BasisSet K) : (casted b).bra = b.bra.map toComplex := by
  unfold BasisSet.bra casted
  rcases hb : b.braSpf with _ | x <;> rcases hs : b.spf with _ | y <;> simp [BasisSet.bra, hb, hs]

/-- **C66** `cast_to_complex`: every attribute keeps its values, shape and flags, and all matrix elements and
single-particle functions are complex afterwards.  Missing: the grid (`C66_false`), which stays as it is. -/
theorem C66_cast_partial {b b' : BasisSet K} (h : (castToComplex).run b = (.ok (), b')) :
    SameContents b b' ∧ AllComplex b' ∧ b'.grid = b.grid ∧ b'.np = b.np := by
  have hb : b' = casted b := by
    simp only [castToComplex, PyM.run_bind, getBra_run, run_get] at h
    split_ifs at h with h1
    · rcases hnp : b.np with _ | np
      · simp [PyM.run_bind, run_liftM, hnp, needNp] at h
      · simp only [PyM.run_bind, run_liftM, hnp, needNp, run_modify, Prod.mk.injEq, true_and] at h
        rw [← h]
        simp [casted, hnp]
    · simp only [PyM.run_bind, run_pure, run_modify, Prod.mk.injEq, true_and] at h
      rw [← h]
      rfl
  subst hb
  refine ⟨⟨?_, ?_, ?_, ?_, ?_, ?_, ?_, ?_, ?_, ?_, ?_, ?_, ⟨rfl, rfl, rfl⟩, ⟨rfl, rfl⟩, ⟨rfl, rfl, rfl⟩, ⟨rfl, rfl⟩,
    rfl⟩, ⟨?_, ?_, ?_, ?_, ?_, ?_, ?_, ?_, ?_, ?_, ?_⟩, rfl, rfl⟩
  all_goals first
    | exact sameOpt_toComplex _
    | exact complexOpt_toComplex _
    | (rw [casted_bra]; exact sameOpt_toComplex _)
    | (rw [casted_bra]; exact complexOpt_toComplex _)
    | exact sameOpt_refl _

/-- **C66** `change_module`: every attribute keeps its values, shape, flags and dtype; only the module
changes. -/
theorem C66_module {b b' : BasisSet K} {np : Option Module} (h : (changeModule np).run b = (.ok (), b')) :
    SameContents b b' ∧ b'.np = np ∧ b'.bra = b.bra ∧ { b' with np := b.np, braSpf := b.braSpf } = b := by
  have hb : b' = { b with np := np } ∨ b' = { b with np := np, braSpf := b.bra } := by
    simp only [changeModule, PyM.run_bind, run_get] at h
    split_ifs at h with h1
    · left
      simp only [run_modify, Prod.mk.injEq, true_and] at h
      exact h.symm
    · right
      simp only [changeModuleBase, PyM.run_bind, run_modify, getBra_run, run_get] at h
      split_ifs at h with h2
      · rw [run_liftM] at h
        exact (Prod.mk.inj h).2.symm
      · exact (Prod.mk.inj h).2.symm
  have hbra : b'.bra = b.bra := by
    rcases hb with rfl | rfl
    · rfl
    · unfold BasisSet.bra
      rcases hb : b.braSpf with _ | x <;> rcases hs : b.spf with _ | y <;> simp
  refine ⟨?_, ?_, hbra, ?_⟩
  · have hbs : SameOpt b.bra b'.bra := by rw [hbra]; exact sameOpt_refl _
    rcases hb with rfl | rfl
    · exact ⟨sameOpt_refl _, sameOpt_refl _, sameOpt_refl _, sameOpt_refl _, sameOpt_refl _, hbs, sameOpt_refl _,
        sameOpt_refl _, sameOpt_refl _, sameOpt_refl _, sameOpt_refl _, sameOpt_refl _, ⟨rfl, rfl, rfl⟩, ⟨rfl, rfl⟩,
        ⟨rfl, rfl, rfl⟩, ⟨rfl, rfl⟩, rfl⟩
    · exact ⟨sameOpt_refl _, sameOpt_refl _, sameOpt_refl _, sameOpt_refl _, sameOpt_refl _, hbs, sameOpt_refl _,
        sameOpt_refl _, sameOpt_refl _, sameOpt_refl _, sameOpt_refl _, sameOpt_refl _, ⟨rfl, rfl, rfl⟩, ⟨rfl, rfl⟩,
        ⟨rfl, rfl, rfl⟩, ⟨rfl, rfl⟩, rfl⟩
  · rcases hb with rfl | rfl <;> rfl
  · rcases hb with rfl | rfl <;> rfl

/-- **C66** Both calls succeed on every basis set with an array module, and on one without a module they raise
`AttributeError` if there is an array to convert. -/
theorem C66_succeeds (b : BasisSet K) (m : Module) :
    (∃ b', (changeModule (some m)).run b = (.ok (), b')) ∧
    (b.np = some m → ∃ b', (castToComplex).run b = (.ok (), b')) ∧
    (b.np = none → b.h.isSome → ((castToComplex).run b).1 = .error .attribute) := by
  refine ⟨?_, fun h => ⟨_, castToComplex_run h⟩, ?_⟩
  · simp only [changeModule, PyM.run_bind, run_get]
    split_ifs
    · exact ⟨_, rfl⟩
    · simp only [changeModuleBase, PyM.run_bind, run_modify, getBra_run, run_get]
      split_ifs
      · exact ⟨_, rfl⟩
      · exact ⟨_, rfl⟩
  · intro h1 h2
    simp only [castToComplex, PyM.run_bind, getBra_run, run_get]
    rw [if_pos (by simp [anyArray, h2])]
    simp only [PyM.run_bind, run_liftM, h1, needNp]

example : ∃ b', (castToComplex).run Demo.basis = (.ok (), b') ∧ SameContents Demo.basis b' ∧ AllComplex b' := by
  obtain ⟨b', h⟩ := (C66_succeeds Demo.basis 0).2.1 rfl
  exact ⟨b', h, (C66_cast_partial h).1, (C66_cast_partial h).2.1⟩

end QS.Props
