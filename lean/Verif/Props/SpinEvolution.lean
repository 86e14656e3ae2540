import Verif.Spec.SpinEvolution
import Verif.Props.Multiplets
import Verif.Props.Evolution

/-!
# The total spin of electrons in pulses (C144)
-/

namespace QS.Props

open Finset NDArray BasisSet PyM Function World

section
variable {N L : ℕ} {ι : Type} {h : ℝ → Fin L → Fin L → ℂ} {u : ℝ → Fin L → Fin L → Fin L → Fin L → ℂ}

theorem LinearOp.zero {op : Wave ℂ N L → Wave ℂ N L} (hl : LinearOp op) : op (fun _ => 0) = fun _ => 0 := by
  have := hl.2 0 (fun _ => 0)
  simpa using this

theorem LinearOp.sum {op : Wave ℂ N L → Wave ℂ N L} (hl : LinearOp op) {κ : Type} (s : Finset κ) (c : κ → ℂ)
    (Ψ : κ → Wave ℂ N L) : op (fun x => ∑ i ∈ s, c i * Ψ i x) = fun x => ∑ i ∈ s, c i * op (Ψ i) x := by
  classical
  induction s using Finset.induction_on with
  | empty => simpa using hl.zero
  | insert a s ha ih =>
    simp only [sum_insert ha]
    rw [hl.1, ih, hl.2]

/-- A linear operator is a sum over the values of the function. -/
theorem LinearOp.expand {op : Wave ℂ N L → Wave ℂ N L} (hl : LinearOp op) (Ψ : Wave ℂ N L) :
    op Ψ = fun x => ∑ y, Ψ y * op (Pi.single y 1) x := by
  rw [← hl.sum univ Ψ fun y => Pi.single y 1]
  congr 1
  funext x
  simp [Pi.single_apply]

/-- A linear operator that commutes with the Hamilton operator makes solutions from solutions. -/
theorem evolves_op {op : Wave ℂ N L → Wave ℂ N L} (hl : LinearOp op)
    (hc : ∀ t Φ, Antisymmetric Φ → op (hamiltonOp (h t) (u t) Φ) = hamiltonOp (h t) (u t) (op Φ)) {Ψ : ℝ → Wave ℂ N L}
    (hΨ : Evolves h u Ψ) (ha : ∀ t, Antisymmetric (Ψ t)) : Evolves h u fun t => op (Ψ t) := fun t x => by
  rw [← hc t _ (ha t), hl.expand (hamiltonOp (h t) (u t) (Ψ t))]
  have h1 : (fun t => op (Ψ t) x) = fun t => ∑ y, Ψ t y * op (Pi.single y 1) x := funext fun t => by rw [hl.expand (Ψ t)]
  rw [h1]
  have h2 := HasDerivAt.fun_sum (u := univ) fun y (_ : y ∈ univ) => (hΨ t y).mul_const (op (Pi.single y 1) x)
  refine h2.congr_deriv ?_
  rw [mul_sum]
  exact sum_congr rfl fun y _ => by ring

/-- Parseval's equation. -/
theorem population_sum {D : ℕ} {Φ : ℕ → Wave ℂ N L} {Ψ : Wave ℂ N L}
    (hc : ∀ x, Ψ x = ∑ i ∈ range D, waveInner (Φ i) Ψ * Φ i x) :
    ((∑ i ∈ range D, population (Φ i) Ψ : ℝ) : ℂ) = waveInner Ψ Ψ := by
  have e1 : waveInner Ψ Ψ = ∑ i ∈ range D, waveInner (Φ i) Ψ * waveInner Ψ (Φ i) := by
    conv_lhs => rw [show waveInner Ψ Ψ = waveInner Ψ (fun x => ∑ i ∈ range D, waveInner (Φ i) Ψ * Φ i x) from
      congrArg (waveInner Ψ) (funext hc)]
    rw [waveInner_comb]
  rw [e1, Complex.ofReal_sum]
  refine sum_congr rfl fun i _ => ?_
  rw [← waveInner_star (Φ i) Ψ, population]
  have := Complex.mul_conj (waveInner (Φ i) Ψ)
  rw [Complex.normSq_eq_norm_sq] at this
  exact this.symm

/-- **C144** Operators that commute with the Hamilton operator at all times are conserved. -/
theorem C144_kept (U : UnitaryEvolution N h u) {S : ι → Wave ℂ N L → Wave ℂ N L} (hl : ∀ a, LinearOp (S a))
    (hc : ∀ a t Φ, Antisymmetric Φ → S a (hamiltonOp (h t) (u t) Φ) = hamiltonOp (h t) (u t) (S a Φ)) : Kept N h u S := by
  classical
  have unique : ∀ {Φ Ψ : ℝ → Wave ℂ N L}, Evolves h u Φ → Evolves h u Ψ → ∀ s, Φ s = Ψ s → Φ = Ψ := fun {Φ Ψ} hΦ hΨ s e => by
    obtain ⟨Χ, -, hu⟩ := U.start s (Ψ s)
    exact (hu Φ ⟨hΦ, e⟩).trans (hu Ψ ⟨hΨ, rfl⟩).symm
  have moves : ∀ {Ψ : ℝ → Wave ℂ N L}, Evolves h u Ψ → ∀ s, Antisymmetric (Ψ s) → ∀ a, Evolves h u fun t => S a (Ψ t) :=
    fun {Ψ} hΨ s ha a => evolves_op (hl a) (hc a) hΨ (U.fermions Ψ hΨ s ha)
  have value : ∀ Ψ : ℝ → Wave ℂ N L, Evolves h u Ψ → ∀ s, Antisymmetric (Ψ s) → ∀ a c, (S a (Ψ s) = fun x => c * Ψ s x) →
      ∀ t, S a (Ψ t) = fun x => c * Ψ t x := fun Ψ hΨ s ha a c e t =>
    congrFun (unique (moves hΨ s ha a) (evolves_smul hΨ c) s e) t
  refine ⟨fun Φ Ψ hΦ hΨ s hΨs a t => U.inner _ _ hΦ (moves hΨ s hΨs a) t s, value, ?_⟩
  intro Ψ hΨ s ha D Φ v J anti orth complete eigen c P hP t
  have hPD : P ⊆ range D := fun i hi => mem_range.2 ((hP i).1 hi).1
  -- the motion of each of the functions
  choose Θ hΘ hΘu using fun i => U.start s (Φ i)
  -- the part with the given values
  set A : ℝ → Wave ℂ N L := fun t x => ∑ i ∈ P, waveInner (Φ i) (Ψ s) * Θ i t x with hA
  have evA : Evolves h u A := evolves_sum P (fun i => waveInner (Φ i) (Ψ s)) fun i _ => (hΘ i).1
  have whole : Ψ = fun t x => ∑ i ∈ range D, waveInner (Φ i) (Ψ s) * Θ i t x :=
    unique hΨ (evolves_sum (range D) (fun i => waveInner (Φ i) (Ψ s)) fun i _ => (hΘ i).1) s (funext fun x => by
      rw [complete _ ha x]
      exact sum_congr rfl fun i _ => by rw [(hΘ i).2])
  have antiΘ : ∀ i < D, ∀ t, Antisymmetric (Θ i t) := fun i hi => U.fermions _ (hΘ i).1 s (by rw [(hΘ i).2]; exact anti i hi)
  have antiA : ∀ t, Antisymmetric (A t) := fun t σ x => by
    simp only [hA]
    rw [mul_sum]
    refine sum_congr rfl fun i hi => ?_
    rw [antiΘ i ((hP i).1 hi).1 t σ x]
    ring
  have zero : ∀ i < D, ∀ j < D, (i ∈ P ↔ j ∉ P) → ∀ t, waveInner (Φ j) (Θ i t) = 0 := fun i hi j hj hij t => by
    have h1 : ∃ a ∈ J, v a j ≠ v a i := by
      by_contra hne
      push Not at hne
      have h2 : i ∈ P ↔ j ∈ P := by
        rw [hP, hP]
        exact ⟨fun h => ⟨hj, fun a ha => (hne a ha).trans (h.2 a ha)⟩, fun h => ⟨hi, fun a ha => (hne a ha).symm.trans (h.2 a ha)⟩⟩
      tauto
    obtain ⟨a, haJ, hne⟩ := h1
    exact linear_orth (hl a) (eigen a haJ) orth (complete _ (antiΘ i hi t))
      (value _ (hΘ i).1 s (by rw [(hΘ i).2]; exact anti i hi) a (v a i) (by rw [(hΘ i).2]; exact eigen a haJ i hi) t) hj hne
  have pop : ∀ t, ∑ i ∈ P, population (Φ i) (Ψ t) = ∑ i ∈ range D, population (Φ i) (A t) := fun t => by
    rw [← sum_subset hPD]
    · refine sum_congr rfl fun j hj => ?_
      unfold population
      congr 2
      have e1 : Ψ t = fun x => ∑ i ∈ range D, waveInner (Φ i) (Ψ s) * Θ i t x := congrFun whole t
      rw [e1, waveInner_comb, hA, waveInner_comb]
      refine (sum_subset hPD fun i hi hiP => ?_).symm
      rw [zero i (mem_range.1 hi) j ((hP j).1 hj).1 (by tauto), mul_zero]
    · intro j hj hjP
      unfold population
      rw [hA, waveInner_comb, sum_eq_zero, norm_zero, sq, zero_mul]
      intro i hi
      rw [zero i ((hP i).1 hi).1 j (mem_range.1 hj) (by tauto), mul_zero]
  rw [pop t, pop s]
  have e := U.inner A A evA evA t s
  rw [← population_sum (complete _ (antiA t)), ← population_sum (complete _ (antiA s))] at e
  exact_mod_cast e

end

/-! ## Electrons in spatial orbitals -/

theorem LinearOp.comp {N L : ℕ} {S T : Wave ℂ N L → Wave ℂ N L} (hS : LinearOp S) (hT : LinearOp T) :
    LinearOp fun Ψ => S (T Ψ) :=
  ⟨fun Φ Ψ => by dsimp only; rw [hT.1, hS.1], fun c Ψ => by dsimp only; rw [hT.2, hS.2]⟩

theorem LinearOp.add {N L : ℕ} {S T : Wave ℂ N L → Wave ℂ N L} (hS : LinearOp S) (hT : LinearOp T) :
    LinearOp fun Ψ x => S Ψ x + T Ψ x :=
  ⟨fun Φ Ψ => by dsimp only; rw [hT.1, hS.1]; funext x; ring, fun c Ψ => by dsimp only; rw [hT.2, hS.2]; funext x; ring⟩

theorem spinSum_linear (l N : ℕ) (σ : ℕ → ℕ → ℂ) : LinearOp (spinSum l N σ) := oneBodyOp_linear _

theorem electronSpin_linear (l N : ℕ) (a : SpinPart) : LinearOp (electronSpin l N a) := by
  cases a with
  | x => exact spinSum_linear l N _
  | y => exact spinSum_linear l N _
  | z => exact spinSum_linear l N _
  | square =>
    exact (((spinSum_linear l N _).comp (spinSum_linear l N _)).add ((spinSum_linear l N _).comp (spinSum_linear l N _))).add
      ((spinSum_linear l N _).comp (spinSum_linear l N _))

theorem spinSum_comm {l N : ℕ} (σ : ℕ → ℕ → ℂ) (H U : NDArray ℂ) (Ψ : Wave ℂ N (2 * l)) :
    spinSum l N σ (hamiltonOp (spinOne l H) (spinTwo l U) Ψ) = hamiltonOp (spinOne l H) (spinTwo l U) (spinSum l N σ Ψ) :=
  spin_comm σ H U Ψ

theorem hamiltonOp_linear {N L : ℕ} (h : Fin L → Fin L → ℂ) (u : Fin L → Fin L → Fin L → Fin L → ℂ) :
    LinearOp (hamiltonOp (N := N) h u) := stored_linear h (1 / 2) u

theorem electronSpin_comm {l N : ℕ} (a : SpinPart) (H U : NDArray ℂ) (Ψ : Wave ℂ N (2 * l)) :
    electronSpin l N a (hamiltonOp (spinOne l H) (spinTwo l U) Ψ) =
      hamiltonOp (spinOne l H) (spinTwo l U) (electronSpin l N a Ψ) := by
  cases a with
  | x => exact spinSum_comm _ _ _ _
  | y => exact spinSum_comm _ _ _ _
  | z => exact spinSum_comm _ _ _ _
  | square =>
    have L := hamiltonOp_linear (N := N) (spinOne l H) (spinTwo l U)
    simp only [electronSpin, spinSum_comm]
    rw [L.1, L.1]

/-- **C144** Electrons in spatial orbitals: whatever the elements are, the total spin is conserved. -/
theorem C144_electrons {l N : ℕ} {H U : ℝ → NDArray ℂ} (E : UnitaryEvolution N (fun t => spinOne l (H t)) fun t => spinTwo l (U t)) :
    Kept N (fun t => spinOne l (H t)) (fun t => spinTwo l (U t)) (electronSpin l N) :=
  C144_kept E (electronSpin_linear l N) fun a t Φ _ => electronSpin_comm a (H t) (U t) Φ

/-- **C144** Electrons in the orbitals of a system with a `LaserField`. -/
theorem C144_orbitals_laser {w w' : World ℂ ℝ} {s o : ℕ} {x : Sys} {b : BasisSet ℂ} {y : TEOp ℂ ℝ}
    {pulse : Attr ℂ ℝ} {pol : Option (Attr ℂ ℝ)} {f : ℝ → Val ℂ} {c : ℝ → ℂ} {e : ℝ → ℕ → ℂ}
    (ok : SysOK w s x b) (hd : b.dipole.isSome = true) (hy : w.ops[o]? = some y)
    (hk : y.kind = .laser pulse pol) (hp : Given pulse f) (hf : ∀ t, IsNumber (f t) (c t))
    (he : GivenPol pol b.dim e)
    (callable : IsCallable pulse ∨ ∃ a, pol = some a ∧ IsCallable a)
    (hset : (setTimeEvolutionOperator s (some o)).run w = (.ok (), w'))
    (Hh : OnSome (HermMat b.l) b.h) (Hu : OnSome (HermU b.l) b.u) (Hd : OnSome (HermDip b.dim b.l) b.dipole)
    (hc : ∀ t, star (c t) = c t) (hcc : Continuous c) (hee : ∀ t, ∀ k < b.dim, star (e t k) = e t k)
    (hec : ∀ k < b.dim, Continuous fun t => e t k) :
    (∃ H U, Answered w' s o H U) ∧ ∀ H U, Answered w' s o H U → ∀ N,
      UnitaryEvolution N (fun t => spinOne b.l (H t)) (fun t => spinTwo b.l (U t)) ∧
      Kept N (fun t => spinOne b.l (H t)) (fun t => spinTwo b.l (U t)) (electronSpin b.l N) := by
  obtain ⟨h, u, d, -, -, -, A, D⟩ := C127_laser ok hd hy hk hp hf he callable hset Hh Hu Hd hc hcc hee hec
  exact ⟨A, fun H U B N => ⟨(D H U B N).1.unitary, C144_electrons (D H U B N).1.unitary⟩⟩

/-- **C144** Electrons in the orbitals of a system with an `AdiabaticSwitching` of their interaction. -/
theorem C144_orbitals_switching {w w' : World ℂ ℝ} {s o : ℕ} {x : Sys} {b : BasisSet ℂ} {a : Attr ℂ ℝ}
    {f : ℝ → Val ℂ} {c : ℝ → ℂ} (ok : SysOK w s x b)
    (hy : w.ops[o]? = some (adiabaticSwitching a)) (hp : Given a f) (hf : ∀ t, IsNumber (f t) (c t))
    (hset : (setTimeEvolutionOperator s (some o)).run w = (.ok (), w'))
    (Hh : OnSome (HermMat b.l) b.h) (Hu : OnSome (HermU b.l) b.u)
    (hc : ∀ t, star (c t) = c t) (hcc : Continuous c) :
    (∃ H U, Answered w' s o H U) ∧ ∀ H U, Answered w' s o H U → ∀ N,
      UnitaryEvolution N (fun t => spinOne b.l (H t)) (fun t => spinTwo b.l (U t)) ∧
      Kept N (fun t => spinOne b.l (H t)) (fun t => spinTwo b.l (U t)) (electronSpin b.l N) := by
  obtain ⟨h, u, -, -, A, D⟩ := C127_switching ok hy hp hf hset Hh Hu hc hcc
  exact ⟨A, fun H U B N => ⟨(D H U B N).1.unitary, C144_electrons (D H U B N).1.unitary⟩⟩

/-- **C144** Electrons in the orbitals of a system with a `CustomOneBodyOperator`. -/
theorem C144_orbitals_custom {w w' : World ℂ ℝ} {s o : ℕ} {x : Sys} {b : BasisSet ℂ} {a : Attr ℂ ℝ}
    {A : NDArray ℂ} {f : ℝ → Val ℂ} {c : ℝ → ℂ} (ok : SysOK w s x b)
    (hy : w.ops[o]? = some (customOneBodyOperator a A)) (hp : Given a f)
    (hf : ∀ t, IsNumber (f t) (c t)) (hA : A.shape = [b.l, b.l])
    (hset : (setTimeEvolutionOperator s (some o)).run w = (.ok (), w'))
    (Hh : OnSome (HermMat b.l) b.h) (Hu : OnSome (HermU b.l) b.u) (HA : HermMat b.l A)
    (hc : ∀ t, star (c t) = c t) (hcc : Continuous c) :
    (∃ H U, Answered w' s o H U) ∧ ∀ H U, Answered w' s o H U → ∀ N,
      UnitaryEvolution N (fun t => spinOne b.l (H t)) (fun t => spinTwo b.l (U t)) ∧
      Kept N (fun t => spinOne b.l (H t)) (fun t => spinTwo b.l (U t)) (electronSpin b.l N) := by
  obtain ⟨h, u, -, -, B, D⟩ := C127_custom ok hy hp hf hA hset Hh Hu HA hc hcc
  exact ⟨B, fun H U B N => ⟨(D H U B N).1.unitary, C144_electrons (D H U B N).1.unitary⟩⟩

theorem pair_spin (Φ : Wave ℂ 2 (2 * 1)) (hΦ : Antisymmetric Φ) (σ : ℕ → ℕ → ℂ) (h : σ 0 0 + σ 1 1 = 0) :
    spinSum 1 2 σ Φ = fun _ => 0 := by
  have key : ∀ a b : Fin (2 * 1), Φ ![b, a] = -Φ ![a, b] := fun a b => by
    have e := hΦ (Equiv.swap 0 1) ![a, b]
    have e2 : (![a, b] : Fin 2 → Fin (2 * 1)) ∘ (Equiv.swap 0 1) = ![b, a] := by
      funext i
      fin_cases i <;> rfl
    rw [e2] at e
    simpa using e
  have z : ∀ a : Fin (2 * 1), Φ ![a, a] = 0 := fun a => self_eq_neg.1 (key a a)
  have u0 : ∀ a b y : Fin (2 * 1), update (![a, b] : Fin 2 → Fin (2 * 1)) 0 y = ![y, b] := fun a b y => by
    funext i
    fin_cases i <;> rfl
  have u1 : ∀ a b y : Fin (2 * 1), update (![a, b] : Fin 2 → Fin (2 * 1)) 1 y = ![a, y] := fun a b y => by
    funext i
    fin_cases i <;> rfl
  funext x
  obtain ⟨a, b, rfl⟩ : ∃ a b, x = ![a, b] := ⟨x 0, x 1, by funext i; fin_cases i <;> rfl⟩
  have k := key 0 1
  have e : ∀ f : Fin (2 * 1) → ℂ, ∑ y, f y = f 0 + f 1 := fun f => Fin.sum_univ_two f
  simp only [spinSum, oneBodyOp, e, u0, u1]
  fin_cases a <;> fin_cases b <;> simp [z, k]
  · linear_combination Φ ![0, 1] * h
  · linear_combination -Φ ![0, 1] * h

/-- Two electrons in one orbital have no spin, and get none. -/
example {H U : ℝ → NDArray ℂ} (E : UnitaryEvolution 2 (fun t => spinOne 1 (H t)) fun t => spinTwo 1 (U t))
    {Ψ : ℝ → Wave ℂ 2 (2 * 1)} (hΨ : Evolves (fun t => spinOne 1 (H t)) (fun t => spinTwo 1 (U t)) Ψ)
    (h0 : Antisymmetric (Ψ 0)) (t : ℝ) : electronSpin 1 2 .square (Ψ t) = fun x => 0 * Ψ t x := by
  refine (C144_electrons E).value Ψ hΨ 0 h0 .square 0 ?_ t
  simp only [electronSpin]
  rw [pair_spin _ h0 _ (by norm_num [halfPauliX]), pair_spin _ h0 _ (by norm_num [halfPauliY]),
    pair_spin _ h0 _ (by norm_num [halfPauliZ])]
  funext x
  simp [spinSum, oneBodyOp]

/-! ## General orbitals -/

theorem storedTwo_ham {l N : ℕ} {anti : Bool} {U u' : NDArray ℂ} {h : Fin (2 * l) → Fin (2 * l) → ℂ}
    (Gu : if anti = true then IsDoubledAntiTwoBody l U u' else IsDoubledTwoBody l U u') {Φ : Wave ℂ N (2 * l)}
    (hΦ : Antisymmetric Φ) : hamiltonOp h (storedTwo l anti u') Φ = hamiltonOp h (spinTwo l U) Φ := by
  unfold hamiltonOp
  funext x
  congr 2
  cases anti with
  | false =>
    rw [if_neg (by simp)] at Gu
    rw [← arrayTwo_isDoubled Gu]
    congr 1
    funext p q r s
    simp [storedTwo]
  | true =>
    rw [if_pos rfl] at Gu
    rw [twoBodyOp_anti (spinTwo l U) hΦ]
    dsimp only
    rw [← twoBodyOp_smul_left]
    congr 1
    funext p q r s
    rw [storedTwo, if_pos rfl, arrayTwo, doubledAnti_get Gu p q r s]

theorem storedTwo_herm {l : ℕ} {anti : Bool} {U u' : NDArray ℂ} (hu : HermU l U) (ex : ExchU l U)
    (Gu : if anti = true then IsDoubledAntiTwoBody l U u' else IsDoubledTwoBody l U u') (p q r s : Fin (2 * l)) :
    star (storedTwo l anti u' p q r s) = storedTwo l anti u' r s p q := by
  cases anti with
  | false =>
    rw [if_neg (by simp)] at Gu
    simp only [storedTwo, arrayTwo_isDoubled Gu]
    rw [star_mul', spinTwo_herm hu]
    simp
  | true =>
    rw [if_pos rfl] at Gu
    have e : ∀ p q r s : Fin (2 * l), spinTwo l U p q r s = spinTwo l U q p s r := fun p q r s => by
      unfold spinTwo
      rw [ex _ (by omega) _ (by omega) _ (by omega) _ (by omega)]
      exact if_congr and_comm rfl rfl
    simp only [storedTwo, arrayTwo, doubledAnti_get Gu, if_true]
    rw [star_mul', star_sub, spinTwo_herm hu, spinTwo_herm hu, e s r p q]
    simp

theorem arraySpin_linear (l N : ℕ) (anti : Bool) (X Y Z s2 tb : NDArray ℂ) (a : SpinPart) :
    LinearOp (arraySpin l N anti X Y Z s2 tb a) := by
  cases a with
  | x => exact oneBodyOp_linear _
  | y => exact oneBodyOp_linear _
  | z => exact oneBodyOp_linear _
  | square => exact stored_linear _ _ _

/-- What the doubling of an orthonormal basis set stores, as far as the spin is concerned. -/
theorem doubled_spin {b b' : BasisSet ℂ} {l : ℕ} {a₀ a₁ b₀ b₁ : ℂ} {r anti : Bool} {s : NDArray ℂ}
    (hb : WellFormed b l) (hsp : b.includesSpin = false) (hna : b.antiSym = false)
    (run : (changeToGeneralBase [a₀, a₁] [b₀, b₁] anti).run b = (.ok r, b')) (ho : OrthoSpin a₀ a₁ b₀ b₁)
    (hs : b.s = some s) (hov : ∀ p < l, ∀ q < l, s.get [p, q] = kd p q) :
    ∃ X Y Z s2 tb, b'.spinX = some X ∧ b'.spinY = some Y ∧ b'.spinZ = some Z ∧ b'.spin2 = some s2 ∧ b'.spin2tb = some tb ∧
      ∀ (N : ℕ) (a : SpinPart) (H U : NDArray ℂ) (Φ : Wave ℂ N (2 * l)), Antisymmetric Φ →
        Antisymmetric (arraySpin l N anti X Y Z s2 tb a Φ) ∧
        arraySpin l N anti X Y Z s2 tb a (hamiltonOp (spinOne l H) (spinTwo l U) Φ) =
          hamiltonOp (spinOne l H) (spinTwo l U) (arraySpin l N anti X Y Z s2 tb a Φ) := by
  obtain ⟨-, ax, ay, az⟩ := orthonormal_doubled hb hsp run hs hov
  obtain ⟨X, Y, Z, s2, tb, ex, ey, ez, e2, et, -⟩ := C19_angular_momentum hb hsp run ho hs hov
  refine ⟨X, Y, Z, s2, tb, ex, ey, ez, e2, et, fun N a H U Φ hΦ => ?_⟩
  have one : ∀ {S σ : NDArray ℂ}, (∀ p < 2 * l, ∀ q < 2 * l, S.get [p, q] = spinAct σ p q) →
      Antisymmetric (oneBodyOp (arrayOne (2 * l) S) Φ) ∧
      oneBodyOp (arrayOne (2 * l) S) (hamiltonOp (spinOne l H) (spinTwo l U) Φ) =
        hamiltonOp (spinOne l H) (spinTwo l U) (oneBodyOp (arrayOne (2 * l) S) Φ) := fun {S σ} hS => by
    refine ⟨oneBodyOp_antisymmetric _ hΦ, ?_⟩
    have e : arrayOne (2 * l) S = spinMatrix l fun a b => 1 / 2 * σ.get [a, b] := by
      funext p q
      exact hS p p.2 q q.2
    rw [e, spin_comm]
  cases a with
  | x => exact one (ax X ex)
  | y => exact one (ay Y ey)
  | z => exact one (az Z ez)
  | square =>
    have e : ∀ {Φ : Wave ℂ N (2 * l)}, Antisymmetric Φ → arraySpin l N anti X Y Z s2 tb .square Φ = squareOp Φ := fun hΦ =>
      storedSquare_eq hb hsp hna run ho hs hov e2 et hΦ
    rw [e hΦ, e (hamiltonOp_antisymmetric _ _ hΦ), square_comm]
    exact ⟨hamiltonOp_antisymmetric _ _ hΦ, rfl⟩

/-- Elements that are those of spatial orbitals at all times. -/
theorem general_kept {b b' : BasisSet ℂ} {l : ℕ} {a₀ a₁ b₀ b₁ : ℂ} {r anti : Bool} {s : NDArray ℂ}
    (hb : WellFormed b l) (hsp : b.includesSpin = false) (hna : b.antiSym = false)
    (run : (changeToGeneralBase [a₀, a₁] [b₀, b₁] anti).run b = (.ok r, b')) (ho : OrthoSpin a₀ a₁ b₀ b₁)
    (hs : b.s = some s) (hov : ∀ p < l, ∀ q < l, s.get [p, q] = kd p q) :
    ∃ X Y Z s2 tb, b'.spinX = some X ∧ b'.spinY = some Y ∧ b'.spinZ = some Z ∧ b'.spin2 = some s2 ∧ b'.spin2tb = some tb ∧
      ∀ (N : ℕ) (h : ℝ → Fin (2 * l) → Fin (2 * l) → ℂ) (u : ℝ → Fin (2 * l) → Fin (2 * l) → Fin (2 * l) → Fin (2 * l) → ℂ),
        UnitaryEvolution N h u → (∀ t, ∃ H U, ∀ Φ : Wave ℂ N (2 * l), Antisymmetric Φ →
          hamiltonOp (h t) (u t) Φ = hamiltonOp (spinOne l H) (spinTwo l U) Φ) →
        Kept N h u (arraySpin l N anti X Y Z s2 tb) := by
  obtain ⟨X, Y, Z, s2, tb, ex, ey, ez, e2, et, D⟩ := doubled_spin hb hsp hna run ho hs hov
  refine ⟨X, Y, Z, s2, tb, ex, ey, ez, e2, et, fun N h u E hhu => C144_kept E (arraySpin_linear l N anti X Y Z s2 tb) ?_⟩
  intro a t Φ hΦ
  obtain ⟨H, U, e⟩ := hhu t
  obtain ⟨h1, h2⟩ := D N a H U Φ hΦ
  rw [e Φ hΦ, h2, e _ h1]

/-- The two-body array of a doubled basis set. -/
theorem doubled_u {b b' : BasisSet ℂ} {l : ℕ} {anti : Bool} {U : NDArray ℂ} (Gen : GeneralOf b b' l anti)
    (hna : b.antiSym = false) (eu : b.u = some U) :
    ∃ u', b'.u = some u' ∧ if anti = true then IsDoubledAntiTwoBody l U u' else IsDoubledTwoBody l U u' := by
  have Gu := Gen.u
  rw [eu] at Gu
  cases eu' : b'.u with
  | none =>
    rw [eu'] at Gu
    split_ifs at Gu <;> exact Gu.elim
  | some u' =>
    rw [eu'] at Gu
    refine ⟨u', rfl, ?_⟩
    cases anti <;> simpa [hna, OptRel] using Gu

theorem doubled_h {b b' : BasisSet ℂ} {l : ℕ} {anti : Bool} {H : NDArray ℂ} (Gen : GeneralOf b b' l anti)
    (eh : b.h = some H) : ∃ h', b'.h = some h' ∧ IsDoubledOneBody l l H h' := by
  have Gh := Gen.h
  rw [eh] at Gh
  cases eh' : b'.h with
  | none =>
    rw [eh'] at Gh
    exact Gh.elim
  | some h' =>
    rw [eh'] at Gh
    exact ⟨h', rfl, Gh⟩

theorem doubled_d {b b' : BasisSet ℂ} {l : ℕ} {anti : Bool} {d : NDArray ℂ} (Gen : GeneralOf b b' l anti)
    (ed : b.dipole = some d) : ∃ d', b'.dipole = some d' ∧ IsDoubledDipole b.dim l d d' := by
  have Gh := Gen.dipole
  rw [ed] at Gh
  cases ed' : b'.dipole with
  | none =>
    rw [ed'] at Gh
    exact Gh.elim
  | some d' =>
    rw [ed'] at Gh
    exact ⟨d', rfl, Gh⟩

theorem spinOne_ofFn {l : ℕ} (f : ℕ → ℕ → ℂ) (p q : Fin (2 * l)) :
    spinOne l (NDArray.ofFn .complex128 [l, l] fun i => f (i.getD 0 0) (i.getD 1 0)) p q =
      if p.1 % 2 = q.1 % 2 then f (p.1 / 2) (q.1 / 2) else 0 := by
  unfold spinOne
  rw [NDArray.ofFn_get_of (by
    have := p.2
    have := q.2
    simp only [InRange, and_true]
    omega)]
  rfl

/-- One-body elements that are driven by forces that do not act on the spins. -/
theorem driven_kept {b b' : BasisSet ℂ} {l n : ℕ} {a₀ a₁ b₀ b₁ : ℂ} {r anti : Bool} {s hs' us' u' : NDArray ℂ}
    {dk : ℕ → NDArray ℂ} {F : ℕ → ℝ → ℂ}
    (hb : WellFormed b l) (hsp : b.includesSpin = false) (hna : b.antiSym = false)
    (run : (changeToGeneralBase [a₀, a₁] [b₀, b₁] anti).run b = (.ok r, b')) (ho : OrthoSpin a₀ a₁ b₀ b₁)
    (hs : b.s = some s) (hov : ∀ p < l, ∀ q < l, s.get [p, q] = kd p q)
    (Hh : HermMat l hs') (Hu : HermU l us') (Ex : ExchU l us') (Hd : ∀ k < n, HermMat l (dk k))
    (F1 : ∀ k < n, ∀ t, star (F k t) = F k t) (F2 : ∀ k < n, Continuous (F k))
    (Gu : if anti = true then IsDoubledAntiTwoBody l us' u' else IsDoubledTwoBody l us' u') :
    ∃ X Y Z s2 tb, b'.spinX = some X ∧ b'.spinY = some Y ∧ b'.spinZ = some Z ∧ b'.spin2 = some s2 ∧ b'.spin2tb = some tb ∧
      ∀ (H U : ℝ → NDArray ℂ), (∀ t p q, arrayOne (2 * l) (H t) p q = spinOne l hs' p q + ∑ k ∈ range n, F k t * spinOne l (dk k) p q) →
        (∀ t, U t = u') → ∀ N,
        UnitaryEvolution N (fun t => arrayOne (2 * l) (H t)) (fun t => storedTwo l anti (U t)) ∧
        Kept N (fun t => arrayOne (2 * l) (H t)) (fun t => storedTwo l anti (U t)) (arraySpin l N anti X Y Z s2 tb) := by
  obtain ⟨X, Y, Z, s2, tb, ex, ey, ez, e2, et, K⟩ := general_kept hb hsp hna run ho hs hov
  refine ⟨X, Y, Z, s2, tb, ex, ey, ez, e2, et, fun H U eH eU N => ?_⟩
  have E := (C127_driven (h := fun t => arrayOne (2 * l) (H t)) (u := fun t => storedTwo l anti (U t)) (n := n)
    (spinOne_herm Hh) (storedTwo_herm Hu Ex Gu) (fun k hk => spinOne_herm (Hd k hk)) F1 F2 eH (fun t => by rw [eU t]) N).unitary
  refine ⟨E, K N _ _ E fun t => ?_⟩
  refine ⟨NDArray.ofFn .complex128 [l, l] fun i => hs'.get [i.getD 0 0, i.getD 1 0] +
    ∑ k ∈ range n, F k t * (dk k).get [i.getD 0 0, i.getD 1 0], us', fun Φ hΦ => ?_⟩
  rw [eU t, storedTwo_ham Gu hΦ]
  congr 1
  funext p q
  rw [eH t, spinOne_ofFn fun i j => hs'.get [i, j] + ∑ k ∈ range n, F k t * (dk k).get [i, j]]
  simp only [spinOne]
  split_ifs <;> simp

/-- **C144** Electrons in general orbitals with a `LaserField`: the arrays `spin_x`, ..., `spin_2_tb` of the system are conserved,
for every orthonormal spin basis, with anti-symmetrised elements or not. -/
theorem C144_laser {w w' : World ℂ ℝ} {s o : ℕ} {x : Sys} {b b' : BasisSet ℂ} {l : ℕ} {a₀ a₁ b₀ b₁ : ℂ} {r anti : Bool}
    {ov : NDArray ℂ} {y : TEOp ℂ ℝ} {pulse : Attr ℂ ℝ} {pol : Option (Attr ℂ ℝ)} {f : ℝ → Val ℂ} {c : ℝ → ℂ} {e : ℝ → ℕ → ℂ}
    (hb : WellFormed b l) (hsp : b.includesSpin = false) (hna : b.antiSym = false)
    (run : (changeToGeneralBase [a₀, a₁] [b₀, b₁] anti).run b = (.ok r, b')) (hos : OrthoSpin a₀ a₁ b₀ b₁)
    (hs : b.s = some ov) (hov : ∀ p < l, ∀ q < l, ov.get [p, q] = kd p q)
    (ok : SysOK w s x b') (hd : b.dipole.isSome = true) (hy : w.ops[o]? = some y)
    (hk : y.kind = .laser pulse pol) (hp : Given pulse f) (hf : ∀ t, IsNumber (f t) (c t))
    (he : GivenPol pol b.dim e)
    (callable : IsCallable pulse ∨ ∃ a, pol = some a ∧ IsCallable a)
    (hset : (setTimeEvolutionOperator s (some o)).run w = (.ok (), w'))
    (Hh : OnSome (HermMat l) b.h) (Hu : OnSome (HermU l) b.u) (Ex : OnSome (ExchU l) b.u)
    (Hd : OnSome (HermDip b.dim l) b.dipole)
    (hc : ∀ t, star (c t) = c t) (hcc : Continuous c) (hee : ∀ t, ∀ k < b.dim, star (e t k) = e t k)
    (hec : ∀ k < b.dim, Continuous fun t => e t k) :
    ∃ X Y Z s2 tb, b'.spinX = some X ∧ b'.spinY = some Y ∧ b'.spinZ = some Z ∧ b'.spin2 = some s2 ∧ b'.spin2tb = some tb ∧
      (∃ H U, Answered w' s o H U) ∧ ∀ H U, Answered w' s o H U → ∀ N,
        UnitaryEvolution N (fun t => arrayOne (2 * l) (H t)) (fun t => storedTwo l anti (U t)) ∧
        Kept N (fun t => arrayOne (2 * l) (H t)) (fun t => storedTwo l anti (U t)) (arraySpin l N anti X Y Z s2 tb) := by
  obtain ⟨-, Gen, -, -⟩ := C16_general hb hsp run
  obtain ⟨h, hh, -⟩ := hb.h
  obtain ⟨u, hu, -⟩ := hb.u
  obtain ⟨d, hd⟩ := Option.isSome_iff_exists.1 hd
  obtain ⟨h', hh', Gh⟩ := doubled_h Gen hh
  obtain ⟨u', hu', Gu⟩ := doubled_u Gen hna hu
  obtain ⟨d', hd', Gd⟩ := doubled_d Gen hd
  have edim : b'.dim = b.dim := Gen.rest.2.2.1
  have LA := C36_partial ok (by rw [hd']; rfl) hy hk hp hf (by rw [edim]; exact he) callable hset
  obtain ⟨X, Y, Z, s2, tb, ex, ey, ez, e2, et, K⟩ := driven_kept (n := b.dim)
    (dk := fun k => NDArray.ofFn .complex128 [l, l] fun i => d.get [k, i.getD 0 0, i.getD 1 0]) (F := fun k t => c t * e t k)
    hb hsp hna run hos hs hov (Hh h hh) (Hu u hu) (Ex u hu)
    (fun k hk p hp q hq => by
      rw [NDArray.ofFn_get_of (by simp [InRange, hp, hq]), NDArray.ofFn_get_of (by simp [InRange, hp, hq])]
      exact Hd d hd k hk p hp q hq)
    (fun k hk t => by rw [star_mul', hc, hee t k hk]) (fun k hk => hcc.mul (hec k hk)) Gu
  refine ⟨X, Y, Z, s2, tb, ex, ey, ez, e2, et, laser_answered LA hu', fun H U A N => K H U (fun t p q => ?_) (fun t => ?_) N⟩
  · obtain ⟨⟨-, g⟩, -⟩ := answered_laser LA hh' hu' hd' A t
    rw [edim, Gen.size] at g
    have e1 := congrFun (congrFun (arrayOne_doubled Gh) p) q
    unfold arrayOne at e1 ⊢
    rw [g p p.2 q q.2, e1, mul_sum]
    congr 1
    refine sum_congr rfl fun k hk => ?_
    have e2 := Gd.2 k (mem_range.1 hk) (p.1 / 2) (by omega) (q.1 / 2) (by omega) (p.1 % 2) (by omega) (q.1 % 2) (by omega)
    rw [Nat.div_add_mod, Nat.div_add_mod] at e2
    rw [spinOne_ofFn fun i j => d.get [k, i, j], e2]
    ring
  · exact (answered_laser LA hh' hu' hd' A t).2

/-- **C144** Electrons in general orbitals with an `AdiabaticSwitching` of their interaction. -/
theorem C144_switching {w w' : World ℂ ℝ} {s o : ℕ} {x : Sys} {b b' : BasisSet ℂ} {l : ℕ} {a₀ a₁ b₀ b₁ : ℂ} {r anti : Bool}
    {ov : NDArray ℂ} {a : Attr ℂ ℝ} {f : ℝ → Val ℂ} {c : ℝ → ℂ}
    (hb : WellFormed b l) (hsp : b.includesSpin = false) (hna : b.antiSym = false)
    (run : (changeToGeneralBase [a₀, a₁] [b₀, b₁] anti).run b = (.ok r, b')) (hos : OrthoSpin a₀ a₁ b₀ b₁)
    (hs : b.s = some ov) (hov : ∀ p < l, ∀ q < l, ov.get [p, q] = kd p q)
    (ok : SysOK w s x b')
    (hy : w.ops[o]? = some (adiabaticSwitching a)) (hp : Given a f) (hf : ∀ t, IsNumber (f t) (c t))
    (hset : (setTimeEvolutionOperator s (some o)).run w = (.ok (), w'))
    (Hh : OnSome (HermMat l) b.h) (Hu : OnSome (HermU l) b.u) (Ex : OnSome (ExchU l) b.u)
    (hc : ∀ t, star (c t) = c t) (hcc : Continuous c) :
    ∃ X Y Z s2 tb, b'.spinX = some X ∧ b'.spinY = some Y ∧ b'.spinZ = some Z ∧ b'.spin2 = some s2 ∧ b'.spin2tb = some tb ∧
      (∃ H U, Answered w' s o H U) ∧ ∀ H U, Answered w' s o H U → ∀ N,
        UnitaryEvolution N (fun t => arrayOne (2 * l) (H t)) (fun t => storedTwo l anti (U t)) ∧
        Kept N (fun t => arrayOne (2 * l) (H t)) (fun t => storedTwo l anti (U t)) (arraySpin l N anti X Y Z s2 tb) := by
  obtain ⟨-, Gen, -, -⟩ := C16_general hb hsp run
  obtain ⟨h, hh, -⟩ := hb.h
  obtain ⟨u, hu, -⟩ := hb.u
  obtain ⟨h', hh', Gh⟩ := doubled_h Gen hh
  obtain ⟨u', hu', Gu⟩ := doubled_u Gen hna hu
  obtain ⟨u'', hu'', su⟩ := ok.wf.u
  obtain rfl := Option.some.inj (hu'.symm.trans hu'')
  rw [← ok.wf.l_eq] at su
  have SA := C37_switching ok hy hp hf hset
  obtain ⟨X, Y, Z, s2, tb, ex, ey, ez, e2, et, K⟩ := general_kept hb hsp hna run hos hs hov
  refine ⟨X, Y, Z, s2, tb, ex, ey, ez, e2, et, switching_answered SA hh', fun H U A N => ?_⟩
  have el : ∀ t, H t = h' ∧ ∀ p q r s, storedTwo l anti (U t) p q r s = c t * storedTwo l anti u' p q r s := fun t => by
    obtain ⟨e1, g⟩ := answered_switching SA hh' hu' su A t
    rw [Gen.size] at g
    refine ⟨e1, fun p q r s => ?_⟩
    simp only [storedTwo, arrayTwo]
    rw [g p p.2 q q.2 r r.2 s s.2]
    ring
  have E := (C127_switched (h := fun t => arrayOne (2 * l) (H t)) (u := fun t => storedTwo l anti (U t))
    (spinOne_herm (Hh h hh)) (storedTwo_herm (Hu u hu) (Ex u hu) Gu) hc hcc
    (fun t => by rw [(el t).1, arrayOne_doubled Gh]) (fun t => (el t).2) N).1.unitary
  refine ⟨E, K N _ _ E fun t => ⟨h, NDArray.smul .complex128 (c t) u, fun Φ hΦ => ?_⟩⟩
  have e1 : storedTwo l anti (U t) = fun p q r s => c t * storedTwo l anti u' p q r s := by
    funext p q r s
    exact (el t).2 p q r s
  have e2 : spinTwo l (NDArray.smul .complex128 (c t) u) = fun p q r s => c t * spinTwo l u p q r s := by
    funext p q r s
    simp only [spinTwo, NDArray.smul_get]
    split_ifs <;> simp
  have e3 := storedTwo_ham (h := fun _ _ => 0) Gu hΦ
  rw [e1, e2, (el t).1, arrayOne_doubled Gh]
  unfold hamiltonOp at e3 ⊢
  funext x
  have e4 := congrFun e3 x
  simp only [add_right_inj] at e4
  rw [twoBodyOp_smul_left, twoBodyOp_smul_left]
  linear_combination c t * e4

/-- **C144** Electrons in general orbitals with a `CustomOneBodyOperator` that does not act on the spins. -/
theorem C144_custom {w w' : World ℂ ℝ} {s o : ℕ} {x : Sys} {b b' : BasisSet ℂ} {l : ℕ} {a₀ a₁ b₀ b₁ : ℂ} {r anti : Bool}
    {ov : NDArray ℂ} {a : Attr ℂ ℝ} {A A' : NDArray ℂ} {f : ℝ → Val ℂ} {c : ℝ → ℂ}
    (hb : WellFormed b l) (hsp : b.includesSpin = false) (hna : b.antiSym = false)
    (run : (changeToGeneralBase [a₀, a₁] [b₀, b₁] anti).run b = (.ok r, b')) (hos : OrthoSpin a₀ a₁ b₀ b₁)
    (hs : b.s = some ov) (hov : ∀ p < l, ∀ q < l, ov.get [p, q] = kd p q)
    (ok : SysOK w s x b') (GA : IsDoubledOneBody l l A A')
    (hy : w.ops[o]? = some (customOneBodyOperator a A')) (hp : Given a f) (hf : ∀ t, IsNumber (f t) (c t))
    (hset : (setTimeEvolutionOperator s (some o)).run w = (.ok (), w'))
    (Hh : OnSome (HermMat l) b.h) (Hu : OnSome (HermU l) b.u) (Ex : OnSome (ExchU l) b.u) (HA : HermMat l A)
    (hc : ∀ t, star (c t) = c t) (hcc : Continuous c) :
    ∃ X Y Z s2 tb, b'.spinX = some X ∧ b'.spinY = some Y ∧ b'.spinZ = some Z ∧ b'.spin2 = some s2 ∧ b'.spin2tb = some tb ∧
      (∃ H U, Answered w' s o H U) ∧ ∀ H U, Answered w' s o H U → ∀ N,
        UnitaryEvolution N (fun t => arrayOne (2 * l) (H t)) (fun t => storedTwo l anti (U t)) ∧
        Kept N (fun t => arrayOne (2 * l) (H t)) (fun t => storedTwo l anti (U t)) (arraySpin l N anti X Y Z s2 tb) := by
  obtain ⟨-, Gen, -, -⟩ := C16_general hb hsp run
  obtain ⟨h, hh, -⟩ := hb.h
  obtain ⟨u, hu, -⟩ := hb.u
  obtain ⟨h', hh', Gh⟩ := doubled_h Gen hh
  obtain ⟨u', hu', Gu⟩ := doubled_u Gen hna hu
  have CA := C37_custom ok hy hp hf (by rw [Gen.size]; exact GA.1) hset
  obtain ⟨X, Y, Z, s2, tb, ex, ey, ez, e2, et, K⟩ := driven_kept (n := 1) (dk := fun _ => A) (F := fun _ => c)
    hb hsp hna run hos hs hov (Hh h hh) (Hu u hu) (Ex u hu) (fun _ _ => HA) (fun _ _ => hc) (fun _ _ => hcc) Gu
  refine ⟨X, Y, Z, s2, tb, ex, ey, ez, e2, et, custom_answered CA hu', fun H U B N => K H U (fun t p q => ?_) (fun t => ?_) N⟩
  · obtain ⟨g, -⟩ := answered_custom CA hh' hu' B t
    rw [Gen.size] at g
    have e1 := congrFun (congrFun (arrayOne_doubled Gh) p) q
    have e3 := congrFun (congrFun (arrayOne_doubled GA) p) q
    unfold arrayOne at e1 e3 ⊢
    rw [g p p.2 q q.2, e1, e3, sum_range_one]
  · exact (answered_custom CA hh' hu' B t).2

end QS.Props
