import Verif.Spec.Multiplets
import Verif.Lemmas.Sectors
import Verif.Lemmas.ManyBodySpin

/-!
# The spin of `N` electrons (helper file, no property theorems)
-/

namespace QS

open Finset Function

variable {N L l : ℕ} {G : Type}

/-! ## Linearity -/

theorem oneBodyOp_add_left (A B : Fin L → Fin L → ℂ) (Ψ : Wave ℂ N L) (x) :
    oneBodyOp (fun p q => A p q + B p q) Ψ x = oneBodyOp A Ψ x + oneBodyOp B Ψ x := by
  unfold oneBodyOp
  simp only [add_mul, sum_add_distrib]

theorem oneBodyOp_smul_left (c : ℂ) (A : Fin L → Fin L → ℂ) (Ψ : Wave ℂ N L) (x) :
    oneBodyOp (fun p q => c * A p q) Ψ x = c * oneBodyOp A Ψ x := by
  unfold oneBodyOp
  simp only [mul_sum, mul_assoc]

theorem oneBodyOp_add_right (A : Fin L → Fin L → ℂ) (Φ Ψ : Wave ℂ N L) (x) :
    oneBodyOp A (fun x => Φ x + Ψ x) x = oneBodyOp A Φ x + oneBodyOp A Ψ x := by
  unfold oneBodyOp
  simp only [mul_add, sum_add_distrib]

theorem oneBodyOp_smul_right (c : ℂ) (A : Fin L → Fin L → ℂ) (Ψ : Wave ℂ N L) (x) :
    oneBodyOp A (fun x => c * Ψ x) x = c * oneBodyOp A Ψ x := by
  unfold oneBodyOp
  simp only [mul_sum]
  exact sum_congr rfl fun i _ => sum_congr rfl fun y _ => by ring

/-- The adjoint of a sum over the particles. -/
theorem oneBodyOp_adjoint {A B : Fin L → Fin L → ℂ} (h : ∀ p q, star (A p q) = B q p) (Φ Ψ : Wave ℂ N L) :
    waveInner (oneBodyOp A Φ) Ψ = waveInner Φ (oneBodyOp B Ψ) := by
  unfold waveInner oneBodyOp
  simp only [star_sum, sum_mul, mul_sum]
  rw [sum_comm, sum_comm (s := univ (α := Fin N → Fin L))]
  refine sum_congr rfl fun i _ => ?_
  rw [sum_swapAt i]
  refine sum_congr rfl fun x _ => sum_congr rfl fun y _ => ?_
  rw [update_self, update_idem, update_eq_self, star_mul', h]
  ring

/-! ## Matrices that act on the spin -/

/-- `1 ⊗ σ`. -/
def spinMatrix (l : ℕ) (σ : ℕ → ℕ → ℂ) (p q : Fin (2 * l)) : ℂ := if p.1 / 2 = q.1 / 2 then σ (p.1 % 2) (q.1 % 2) else 0

theorem sum_spin_left (σ : ℕ → ℕ → ℂ) (p : Fin (2 * l)) (f : Fin (2 * l) → ℂ) :
    ∑ k, spinMatrix l σ p k * f k =
      σ (p.1 % 2) 0 * f ⟨2 * (p.1 / 2), by omega⟩ + σ (p.1 % 2) 1 * f ⟨2 * (p.1 / 2) + 1, by omega⟩ := by
  have hne : (⟨2 * (p.1 / 2), by omega⟩ : Fin (2 * l)) ≠ ⟨2 * (p.1 / 2) + 1, by omega⟩ := by simp
  rw [← sum_subset (subset_univ {⟨2 * (p.1 / 2), by omega⟩, ⟨2 * (p.1 / 2) + 1, by omega⟩}), sum_pair hne]
  · unfold spinMatrix
    simp only [show 2 * (p.1 / 2) / 2 = p.1 / 2 by omega, show (2 * (p.1 / 2) + 1) / 2 = p.1 / 2 by omega,
      show 2 * (p.1 / 2) % 2 = 0 by omega, show (2 * (p.1 / 2) + 1) % 2 = 1 by omega, if_true]
  · intro k _ hk
    simp only [mem_insert, mem_singleton, Fin.ext_iff, not_or] at hk
    unfold spinMatrix
    rw [if_neg (by omega), zero_mul]

theorem sum_spin_right (σ : ℕ → ℕ → ℂ) (q : Fin (2 * l)) (f : Fin (2 * l) → ℂ) :
    ∑ k, f k * spinMatrix l σ k q =
      f ⟨2 * (q.1 / 2), by omega⟩ * σ 0 (q.1 % 2) + f ⟨2 * (q.1 / 2) + 1, by omega⟩ * σ 1 (q.1 % 2) := by
  have h : ∀ k, f k * spinMatrix l σ k q = spinMatrix l (fun a b => σ b a) q k * f k := fun k => by
    unfold spinMatrix
    rw [mul_comm]
    simp only [eq_comm]
  rw [sum_congr rfl fun k _ => h k, sum_spin_left]
  ring

theorem spin_comm_one (σ : ℕ → ℕ → ℂ) (H : NDArray ℂ) (Ψ : Wave ℂ N (2 * l)) :
    oneBodyOp (spinMatrix l σ) (oneBodyOp (spinOne l H) Ψ) = oneBodyOp (spinOne l H) (oneBodyOp (spinMatrix l σ) Ψ) := by
  funext x
  rw [← sub_eq_zero, oneBodyOp_comm]
  refine sum_eq_zero fun i _ => sum_eq_zero fun y _ => ?_
  dsimp only
  rw [sum_spin_left, sum_spin_right]
  unfold spinOne
  simp only [show ∀ m : ℕ, 2 * m / 2 = m by omega, show ∀ m : ℕ, (2 * m + 1) / 2 = m by omega,
    show ∀ m : ℕ, 2 * m % 2 = 0 by omega, show ∀ m : ℕ, (2 * m + 1) % 2 = 1 by omega]
  rcases Nat.mod_two_eq_zero_or_one (x i).1 with h1 | h1 <;> rcases Nat.mod_two_eq_zero_or_one y.1 with h2 | h2 <;>
    simp [h1, h2, mul_comm]

theorem spin_comm_two (σ : ℕ → ℕ → ℂ) (U : NDArray ℂ) (Ψ : Wave ℂ N (2 * l)) :
    oneBodyOp (spinMatrix l σ) (twoBodyOp (spinTwo l U) Ψ) = twoBodyOp (spinTwo l U) (oneBodyOp (spinMatrix l σ) Ψ) := by
  funext x
  rw [← sub_eq_zero, oneBodyOp_twoBodyOp_comm]
  refine sum_eq_zero fun i _ => sum_eq_zero fun j _ => sum_eq_zero fun y _ => sum_eq_zero fun z _ => ?_
  dsimp only
  rw [sum_add_distrib, sum_add_distrib, sum_spin_left, sum_spin_left, sum_spin_right, sum_spin_right]
  unfold spinTwo
  simp only [show ∀ m : ℕ, 2 * m / 2 = m by omega, show ∀ m : ℕ, (2 * m + 1) / 2 = m by omega,
    show ∀ m : ℕ, 2 * m % 2 = 0 by omega, show ∀ m : ℕ, (2 * m + 1) % 2 = 1 by omega]
  rcases Nat.mod_two_eq_zero_or_one (x i).1 with h1 | h1 <;> rcases Nat.mod_two_eq_zero_or_one (x j).1 with h2 | h2 <;>
    rcases Nat.mod_two_eq_zero_or_one y.1 with h3 | h3 <;> rcases Nat.mod_two_eq_zero_or_one z.1 with h4 | h4 <;>
    simp [h1, h2, h3, h4, mul_comm]

/-- Elements that do not act on the spin commute with everything that acts on the spins only. -/
theorem spin_comm (σ : ℕ → ℕ → ℂ) (H U : NDArray ℂ) (Ψ : Wave ℂ N (2 * l)) :
    oneBodyOp (spinMatrix l σ) (hamiltonOp (spinOne l H) (spinTwo l U) Ψ) =
      hamiltonOp (spinOne l H) (spinTwo l U) (oneBodyOp (spinMatrix l σ) Ψ) := by
  funext x
  have h1 := congrFun (spin_comm_one σ H Ψ) x
  have h2 := congrFun (spin_comm_two σ U Ψ) x
  unfold hamiltonOp
  rw [oneBodyOp_add_right, oneBodyOp_smul_right, h1, h2]

/-- Raises the spin: the second spin becomes the first one. -/
def up (a b : ℕ) : ℂ := if a = 0 ∧ b = 1 then 1 else 0

/-- Lowers the spin. -/
def down (a b : ℕ) : ℂ := if a = 1 ∧ b = 0 then 1 else 0

/-- The component of the spin. -/
noncomputable def updown (a b : ℕ) : ℂ := if a = b then (if a = 0 then 1 / 2 else -1 / 2) else 0

/-- `S₊`. -/
noncomputable def raise (Ψ : Wave ℂ N (2 * l)) : Wave ℂ N (2 * l) := oneBodyOp (spinMatrix l up) Ψ

/-- `S₋`. -/
noncomputable def lower (Ψ : Wave ℂ N (2 * l)) : Wave ℂ N (2 * l) := oneBodyOp (spinMatrix l down) Ψ

/-- `S_z`. -/
noncomputable def compOp (Ψ : Wave ℂ N (2 * l)) : Wave ℂ N (2 * l) := oneBodyOp (spinMatrix l updown) Ψ

theorem raise_adjoint (Φ Ψ : Wave ℂ N (2 * l)) : waveInner (raise Φ) Ψ = waveInner Φ (lower Ψ) := by
  refine oneBodyOp_adjoint (fun p q => ?_) Φ Ψ
  unfold spinMatrix up down
  by_cases h : p.1 / 2 = q.1 / 2
  · rw [if_pos h, if_pos h.symm]
    simp only [and_comm]
    split_ifs <;> simp
  · rw [if_neg h, if_neg (Ne.symm h), star_zero]

theorem lower_adjoint (Φ Ψ : Wave ℂ N (2 * l)) : waveInner (lower Φ) Ψ = waveInner Φ (raise Ψ) := by
  rw [← waveInner_star, ← raise_adjoint, waveInner_star]

/-- One-body elements of the square of the total spin. -/
noncomputable def squareOne (l : ℕ) (p q : Fin (2 * l)) : ℂ := if p = q then 3 / 4 else 0

/-- Two-body elements of the square of the total spin. -/
noncomputable def squareTwo (l : ℕ) (p q r s : Fin (2 * l)) : ℂ :=
  spinMatrix l down p r * spinMatrix l up q s + spinMatrix l up p r * spinMatrix l down q s +
    2 * (spinMatrix l updown p r * spinMatrix l updown q s)

/-- `S²`. -/
noncomputable def squareOp (Ψ : Wave ℂ N (2 * l)) : Wave ℂ N (2 * l) := hamiltonOp (squareOne l) (squareTwo l) Ψ

theorem squareOne_herm (p q : Fin (2 * l)) : star (squareOne l p q) = squareOne l q p := by
  unfold squareOne
  simp only [eq_comm]
  split_ifs <;> simp

theorem spinMatrix_star {σ τ : ℕ → ℕ → ℂ} (h : ∀ a b, star (σ a b) = τ b a) (p q : Fin (2 * l)) :
    star (spinMatrix l σ p q) = spinMatrix l τ q p := by
  unfold spinMatrix
  by_cases hp : p.1 / 2 = q.1 / 2
  · rw [if_pos hp, if_pos hp.symm, h]
  · rw [if_neg hp, if_neg (Ne.symm hp), star_zero]

theorem up_star (a b : ℕ) : star (up a b) = down b a := by
  unfold up down
  simp only [and_comm]
  split_ifs <;> simp

theorem down_star (a b : ℕ) : star (down a b) = up b a := by rw [← star_star (up b a), up_star]

theorem updown_star (a b : ℕ) : star (updown a b) = updown b a := by
  unfold updown
  by_cases h : a = b
  · subst h
    split_ifs <;> simp
  · rw [if_neg h, if_neg (Ne.symm h), star_zero]

theorem squareTwo_herm (p q r s : Fin (2 * l)) : star (squareTwo l p q r s) = squareTwo l r s p q := by
  unfold squareTwo
  simp only [star_add, star_mul', spinMatrix_star up_star, spinMatrix_star down_star, spinMatrix_star updown_star]
  rw [show star (2 : ℂ) = 2 by simp]
  ring

theorem twoBodyOp_add_left (u v : Fin L → Fin L → Fin L → Fin L → ℂ) (Ψ : Wave ℂ N L) (x) :
    twoBodyOp (fun p q r s => u p q r s + v p q r s) Ψ x = twoBodyOp u Ψ x + twoBodyOp v Ψ x := by
  unfold twoBodyOp
  simp only [add_mul, sum_add_distrib]

theorem twoBodyOp_smul_left (c : ℂ) (u : Fin L → Fin L → Fin L → Fin L → ℂ) (Ψ : Wave ℂ N L) (x) :
    twoBodyOp (fun p q r s => c * u p q r s) Ψ x = c * twoBodyOp u Ψ x := by
  unfold twoBodyOp
  simp only [mul_sum, mul_assoc]

/-- `S² = S₋ S₊ + S_z² + S_z`. -/
theorem square_lower_raise (Ψ : Wave ℂ N (2 * l)) (x) :
    squareOp Ψ x = lower (raise Ψ) x + compOp (compOp Ψ) x + compOp Ψ x := by
  unfold squareOp lower raise compOp hamiltonOp
  rw [oneBodyOp_comp, oneBodyOp_comp]
  unfold squareTwo
  rw [twoBodyOp_add_left, twoBodyOp_add_left, twoBodyOp_smul_left,
    ← twoBodyOp_swap (fun p q r s => spinMatrix l up p r * spinMatrix l down q s)]
  have e : (fun p q r s : Fin (2 * l) => spinMatrix l up q s * spinMatrix l down p r) =
      fun p q r s => spinMatrix l down p r * spinMatrix l up q s := by
    funext p q r s; ring
  rw [e]
  have e1 : squareOne l = fun p q : Fin (2 * l) => (∑ k, spinMatrix l down p k * spinMatrix l up k q) +
      ((∑ k, spinMatrix l updown p k * spinMatrix l updown k q) + spinMatrix l updown p q) := by
    funext p q
    rw [sum_spin_left, sum_spin_left]
    unfold squareOne spinMatrix up down updown
    simp only [show ∀ m : ℕ, 2 * m / 2 = m by omega, show ∀ m : ℕ, (2 * m + 1) / 2 = m by omega,
      show ∀ m : ℕ, 2 * m % 2 = 0 by omega, show ∀ m : ℕ, (2 * m + 1) % 2 = 1 by omega]
    by_cases h : p.1 / 2 = q.1 / 2
    · rcases Nat.mod_two_eq_zero_or_one p.1 with h1 | h1 <;> rcases Nat.mod_two_eq_zero_or_one q.1 with h2 | h2
      · rw [if_pos (Fin.ext (by omega))]; simp [h, h1, h2]; norm_num
      · rw [if_neg fun e => by have := congrArg Fin.val e; omega]; simp [h, h1, h2]
      · rw [if_neg fun e => by have := congrArg Fin.val e; omega]; simp [h, h1, h2]
      · rw [if_pos (Fin.ext (by omega))]; simp [h, h1, h2]; norm_num
    · rw [if_neg fun e => h (by rw [e])]; simp [h]
  rw [e1, oneBodyOp_add_left, oneBodyOp_add_left]
  ring

/-- `S₊ S₋ = S₋ S₊ + 2 S_z`. -/
theorem raise_lower (Ψ : Wave ℂ N (2 * l)) (x) : raise (lower Ψ) x = lower (raise Ψ) x + 2 * compOp Ψ x := by
  have h := oneBodyOp_comm (spinMatrix l up) (spinMatrix l down) Ψ x
  have e : (fun p q : Fin (2 * l) => ∑ k, spinMatrix l up p k * spinMatrix l down k q -
      ∑ k, spinMatrix l down p k * spinMatrix l up k q) = fun p q => 2 * spinMatrix l updown p q := by
    funext p q
    rw [sum_spin_left, sum_spin_left]
    unfold spinMatrix up down updown
    simp only [show ∀ m : ℕ, 2 * m / 2 = m by omega, show ∀ m : ℕ, (2 * m + 1) / 2 = m by omega,
      show ∀ m : ℕ, 2 * m % 2 = 0 by omega, show ∀ m : ℕ, (2 * m + 1) % 2 = 1 by omega]
    by_cases h : p.1 / 2 = q.1 / 2
    · rcases Nat.mod_two_eq_zero_or_one p.1 with h1 | h1 <;> rcases Nat.mod_two_eq_zero_or_one q.1 with h2 | h2 <;>
        simp [h, h1, h2] <;> norm_num
    · simp [h]
  rw [e, oneBodyOp_smul_left] at h
  unfold raise lower compOp
  linear_combination h

theorem square_raise_lower (Ψ : Wave ℂ N (2 * l)) (x) :
    squareOp Ψ x = raise (lower Ψ) x + compOp (compOp Ψ) x - compOp Ψ x := by
  rw [square_lower_raise, raise_lower]
  ring

/-! ## Quantum numbers -/

theorem hasTotal_snd [AddCommMonoid G] {g : ℕ → G} {Q : G} {k : ℕ} {Ψ : Wave ℂ N (2 * l)}
    (h : HasTotal (spinLabel g l) (Q, k) Ψ) {x : Fin N → Fin (2 * l)} (hx : Ψ x ≠ 0) :
    total (spinLabel g l) x = (Q, k) := by
  by_contra hc
  exact hx (h x hc)

theorem total_parts [AddCommMonoid G] (g : ℕ → G) (x : Fin N → Fin (2 * l)) :
    total (spinLabel g l) x = (∑ i, g ((x i).1 / 2), ∑ i, (x i).1 % 2) := by
  unfold total spinLabel
  exact Prod.ext Prod.fst_sum Prod.snd_sum

/-- States with `k` electrons with the second spin have the component `N / 2 - k`. -/
theorem comp_total [AddCommMonoid G] {g : ℕ → G} {Q : G} {k : ℕ} {Ψ : Wave ℂ N (2 * l)}
    (h : HasTotal (spinLabel g l) (Q, k) Ψ) : compOp Ψ = fun x => ((N : ℂ) / 2 - k) * Ψ x := by
  funext x
  have h1 : compOp Ψ x = (∑ i, updown ((x i).1 % 2) ((x i).1 % 2)) * Ψ x := by
    unfold compOp oneBodyOp
    rw [sum_mul]
    refine sum_congr rfl fun i _ => ?_
    rw [sum_eq_single (x i)]
    · rw [update_eq_self]
      unfold spinMatrix
      rw [if_pos rfl]
    · intro y _ hy
      unfold spinMatrix updown
      by_cases hd : (x i).1 / 2 = y.1 / 2
      · rw [if_pos hd, if_neg fun e => hy (Fin.ext (by omega)), zero_mul]
      · rw [if_neg hd, zero_mul]
    · exact fun h => absurd (mem_univ _) h
  rw [h1]
  by_cases hx : Ψ x = 0
  · rw [hx, mul_zero, mul_zero]
  congr 1
  have h2 := hasTotal_snd h hx
  rw [total_parts] at h2
  have h3 : ∑ i, (x i).1 % 2 = k := congrArg Prod.snd h2
  have h4 : ∀ i, updown ((x i).1 % 2) ((x i).1 % 2) = 1 / 2 - (((x i).1 % 2 : ℕ) : ℂ) := fun i => by
    unfold updown
    rw [if_pos rfl]
    rcases Nat.mod_two_eq_zero_or_one (x i).1 with h | h <;> rw [h] <;> norm_num
  rw [sum_congr rfl fun i _ => h4 i, sum_sub_distrib, ← Nat.cast_sum, h3]
  simp only [sum_const, card_univ, Fintype.card_fin, nsmul_eq_mul]
  ring

/-- A sum over the particles whose matrix lowers a quantum number by `δ`. -/
theorem oneBody_lower [AddCommMonoid G] {g : Fin L → G} {d : Fin L → Fin L → ℂ} {δ : G}
    (hd : ∀ p q, d p q ≠ 0 → g q = g p + δ) {Q : G} {Ψ : Wave ℂ N L} (hΨ : HasTotal g Q Ψ) {x : Fin N → Fin L}
    (hx : total g x + δ ≠ Q) : oneBodyOp d Ψ x = 0 := by
  refine sum_eq_zero fun i _ => sum_eq_zero fun y _ => ?_
  by_cases h : d (x i) y = 0
  · rw [h, zero_mul]
  · rw [hΨ, mul_zero]
    rw [total_update, hd _ _ h]
    intro e
    apply hx
    rw [← e, total_erase g x i]
    abel

theorem raise_total [AddCommMonoid G] {g : ℕ → G} {Q : G} {k : ℕ} {Ψ : Wave ℂ N (2 * l)}
    (h : HasTotal (spinLabel g l) (Q, k + 1) Ψ) : HasTotal (spinLabel g l) (Q, k) (raise Ψ) := fun x hx => by
  refine oneBody_lower (g := spinLabel g l) (δ := (0, 1)) (fun p q hpq => ?_) h fun e => hx ?_
  · unfold spinMatrix up at hpq
    have h1 : p.1 / 2 = q.1 / 2 := by
      by_contra hc
      exact hpq (if_neg hc)
    rw [if_pos h1] at hpq
    have h2 : p.1 % 2 = 0 ∧ q.1 % 2 = 1 := by
      by_contra hc
      exact hpq (if_neg hc)
    unfold spinLabel
    rw [h1, h2.1, h2.2]
    exact Prod.ext (add_zero _).symm rfl
  · have h1 := congrArg Prod.fst e
    have h2 := congrArg Prod.snd e
    simp only [Prod.fst_add, Prod.snd_add, add_zero] at h1 h2
    exact Prod.ext h1 (by simpa using h2)

theorem raise_zero [AddCommMonoid G] {g : ℕ → G} {Q : G} {Ψ : Wave ℂ N (2 * l)}
    (h : HasTotal (spinLabel g l) (Q, 0) Ψ) : raise Ψ = fun _ => 0 := by
  funext x
  refine oneBody_lower (g := spinLabel g l) (δ := (0, 1)) (fun p q hpq => ?_) h fun e => ?_
  · unfold spinMatrix up at hpq
    have h1 : p.1 / 2 = q.1 / 2 := by
      by_contra hc
      exact hpq (if_neg hc)
    rw [if_pos h1] at hpq
    have h2 : p.1 % 2 = 0 ∧ q.1 % 2 = 1 := by
      by_contra hc
      exact hpq (if_neg hc)
    unfold spinLabel
    rw [h1, h2.1, h2.2]
    exact Prod.ext (add_zero _).symm rfl
  · have h2 := congrArg Prod.snd e
    simp only [Prod.snd_add] at h2
    omega

theorem lower_total [AddCommMonoid G] {g : ℕ → G} {Q : G} {k : ℕ} {Ψ : Wave ℂ N (2 * l)}
    (h : HasTotal (spinLabel g l) (Q, k) Ψ) : HasTotal (spinLabel g l) (Q, k + 1) (lower Ψ) := fun x hx => by
  refine oneBody_shift (g := spinLabel g l) (Δ := {(0, 1)}) (fun p q hpq => ?_) h fun δ hδ e => hx ?_
  · unfold spinMatrix down
    by_cases h1 : p.1 / 2 = q.1 / 2
    · rw [if_pos h1]
      refine if_neg fun h2 => hpq _ (Set.mem_singleton _) ?_
      unfold spinLabel
      rw [h1, h2.1, h2.2]
      exact Prod.ext (add_zero _).symm rfl
    · exact if_neg h1
  · rw [e, Set.mem_singleton_iff.1 hδ]
    exact Prod.ext (add_zero _) rfl

/-! ## Raising and lowering -/

/-- A wave function with the total quantum number `Q`, `k` electrons with the second spin and the value `e` of the square of the
spin. -/
structure Sector [AddCommMonoid G] (g : ℕ → G) (Q : G) (k : ℕ) (e : ℝ) (Ψ : Wave ℂ N (2 * l)) : Prop where
  total : HasTotal (spinLabel g l) (Q, k) Ψ
  square : squareOp Ψ = fun x => (e : ℂ) * Ψ x

/-- The component of the spin. -/
noncomputable def compValue (N k : ℕ) : ℝ := N / 2 - k

theorem compValue_cast (N k : ℕ) : ((compValue N k : ℝ) : ℂ) = (N : ℂ) / 2 - k := by
  unfold compValue
  push_cast
  rfl

theorem compValue_succ (N k : ℕ) : compValue N (k + 1) = compValue N k - 1 := by
  unfold compValue
  push_cast
  ring

section
variable [AddCommMonoid G] {g : ℕ → G} {Q : G} {k : ℕ} {e : ℝ} {Ψ : Wave ℂ N (2 * l)}

theorem Sector.comp (h : Sector g Q k e Ψ) : compOp Ψ = fun x => (compValue N k : ℂ) * Ψ x := by
  rw [comp_total h.total, compValue_cast]

theorem compOp_smul (c : ℂ) (Ψ : Wave ℂ N (2 * l)) : compOp (fun x => c * Ψ x) = fun x => c * compOp Ψ x :=
  funext fun x => oneBodyOp_smul_right c _ Ψ x

theorem Sector.lower_raise (h : Sector g Q k e Ψ) :
    lower (raise Ψ) = fun x => ((e - compValue N k * (compValue N k + 1) : ℝ) : ℂ) * Ψ x := by
  funext x
  have h1 := square_lower_raise Ψ x
  rw [h.square, h.comp, compOp_smul, h.comp] at h1
  push_cast
  linear_combination -h1

theorem Sector.raise_lower (h : Sector g Q k e Ψ) :
    QS.raise (lower Ψ) = fun x => ((e - compValue N k * (compValue N k - 1) : ℝ) : ℂ) * Ψ x := by
  funext x
  have h1 := square_raise_lower Ψ x
  rw [h.square, h.comp, compOp_smul, h.comp] at h1
  push_cast
  linear_combination -h1

theorem Sector.raise (h : Sector g Q (k + 1) e Ψ) : Sector g Q k e (QS.raise Ψ) := by
  have ht := raise_total h.total
  refine ⟨ht, funext fun x => ?_⟩
  have hc : compOp (QS.raise Ψ) = fun x => (compValue N k : ℂ) * QS.raise Ψ x := by rw [comp_total ht, compValue_cast]
  rw [square_raise_lower, h.lower_raise, hc, compOp_smul, hc, compValue_succ]
  have h1 : QS.raise (fun x => ((e - (compValue N k - 1) * (compValue N k - 1 + 1) : ℝ) : ℂ) * Ψ x) x =
      ((e - (compValue N k - 1) * (compValue N k - 1 + 1) : ℝ) : ℂ) * QS.raise Ψ x := oneBodyOp_smul_right _ _ Ψ x
  rw [h1]
  push_cast
  ring

theorem Sector.lower (h : Sector g Q k e Ψ) : Sector g Q (k + 1) e (QS.lower Ψ) := by
  have ht := lower_total h.total
  refine ⟨ht, funext fun x => ?_⟩
  have hc : compOp (QS.lower Ψ) = fun x => (compValue N (k + 1) : ℂ) * QS.lower Ψ x := by
    rw [comp_total ht, compValue_cast]
  rw [square_lower_raise, h.raise_lower, hc, compOp_smul, hc, compValue_succ]
  have h1 : QS.lower (fun x => ((e - compValue N k * (compValue N k - 1) : ℝ) : ℂ) * Ψ x) x =
      ((e - compValue N k * (compValue N k - 1) : ℝ) : ℂ) * QS.lower Ψ x := oneBodyOp_smul_right _ _ Ψ x
  rw [h1]
  push_cast
  ring

theorem Sector.norm_raise (h : Sector g Q k e Ψ) : waveInner (QS.raise Ψ) (QS.raise Ψ) =
    ((e - compValue N k * (compValue N k + 1) : ℝ) : ℂ) * waveInner Ψ Ψ := by
  rw [raise_adjoint, h.lower_raise, inner_smul_right]

theorem Sector.norm_lower (h : Sector g Q k e Ψ) : waveInner (QS.lower Ψ) (QS.lower Ψ) =
    ((e - compValue N k * (compValue N k - 1) : ℝ) : ℂ) * waveInner Ψ Ψ := by
  rw [lower_adjoint, h.raise_lower, inner_smul_right]

end

theorem waveInner_pos {Φ : Wave ℂ N L} (h : Φ ≠ fun _ => 0) : ∃ c : ℝ, 0 < c ∧ waveInner Φ Φ = c := by
  refine ⟨_, ?_, waveInner_self Φ⟩
  obtain ⟨x, hx⟩ : ∃ x, Φ x ≠ 0 := by
    by_contra hc
    push Not at hc
    exact h (funext hc)
  exact sum_pos' (fun _ _ => sq_nonneg _) ⟨x, mem_univ x, by positivity⟩

theorem waveInner_nonneg (Φ : Wave ℂ N L) : ∃ c : ℝ, 0 ≤ c ∧ waveInner Φ Φ = c :=
  ⟨_, sum_nonneg fun _ _ => sq_nonneg _, waveInner_self Φ⟩

/-- `s (s + 1)` with `s = n / 2`. -/
noncomputable def spinValue (n : ℕ) : ℝ := n / 2 * (n / 2 + 1)

theorem spinValue_injective {m n : ℕ} (h : spinValue m = spinValue n) : m = n := by
  unfold spinValue at h
  have h1 : ((m : ℝ) - n) * (m + n + 2) = 0 := by linear_combination 4 * h
  rcases mul_eq_zero.1 h1 with h2 | h2
  · exact_mod_cast sub_eq_zero.1 h2
  · have : (0 : ℝ) ≤ m := Nat.cast_nonneg m
    have : (0 : ℝ) ≤ n := Nat.cast_nonneg n
    linarith

/-- The possible values of the square of the spin. -/
theorem Sector.value [AddCommMonoid G] {g : ℕ → G} {Q : G} {e : ℝ} : ∀ {k : ℕ} {Ψ : Wave ℂ N (2 * l)}, Sector g Q k e Ψ →
    (Ψ ≠ fun _ => 0) → ∃ n j, n + 2 * j = N ∧ j ≤ k ∧ k ≤ j + n ∧ e = spinValue n := by
  intro k
  induction k with
  | zero =>
    intro Ψ h hne
    have h1 := h.lower_raise
    rw [raise_zero h.total] at h1
    obtain ⟨x, hx⟩ : ∃ x, Ψ x ≠ 0 := by
      by_contra hc
      push Not at hc
      exact hne (funext hc)
    have h2 := congrFun h1 x
    have h3 : QS.lower (fun _ => 0 : Wave ℂ N (2 * l)) x = 0 := by
      unfold QS.lower oneBodyOp
      simp
    rw [h3] at h2
    have h4 := (mul_eq_zero.1 h2.symm).resolve_right hx
    have h5 : e - compValue N 0 * (compValue N 0 + 1) = 0 := by exact_mod_cast h4
    refine ⟨N, 0, by omega, le_rfl, by omega, ?_⟩
    unfold compValue at h5
    unfold spinValue
    push_cast at h5
    linarith
  | succ k ih =>
    intro Ψ h hne
    obtain ⟨c, hc, hcΨ⟩ := waveInner_pos hne
    by_cases hr : QS.raise Ψ = fun _ => 0
    · have h1 := h.norm_raise
      rw [hr, hcΨ] at h1
      have h2 : waveInner (fun _ => 0 : Wave ℂ N (2 * l)) (fun _ => 0) = 0 := by
        unfold waveInner
        simp
      rw [h2] at h1
      have h3 : (e - compValue N (k + 1) * (compValue N (k + 1) + 1)) * c = 0 := by exact_mod_cast h1.symm
      have h4 := (mul_eq_zero.1 h3).resolve_right hc.ne'
      obtain ⟨c', hc', h5⟩ := waveInner_nonneg (QS.lower Ψ)
      rw [h.norm_lower, hcΨ] at h5
      have h6 : (e - compValue N (k + 1) * (compValue N (k + 1) - 1)) * c = c' := by exact_mod_cast h5
      have h7 : 0 ≤ e - compValue N (k + 1) * (compValue N (k + 1) - 1) := by
        by_contra hcon
        push Not at hcon
        nlinarith [mul_neg_of_neg_of_pos hcon hc]
      have h8 : 0 ≤ compValue N (k + 1) := by nlinarith
      unfold compValue at h8 h4
      have h9 : 2 * (k + 1) ≤ N := by
        have : (2 : ℝ) * ((k + 1 : ℕ) : ℝ) ≤ N := by linarith
        exact_mod_cast this
      refine ⟨N - 2 * (k + 1), k + 1, by omega, le_rfl, by omega, ?_⟩
      unfold spinValue
      rw [Nat.cast_sub h9]
      push_cast at h4 ⊢
      linarith
    · obtain ⟨n, j, h1, h2, h3, h4⟩ := ih h.raise hr
      refine ⟨n, j, h1, by omega, ?_, h4⟩
      by_contra hcon
      have hk : k = j + n := by omega
      obtain ⟨c', hc', h5⟩ := waveInner_pos hr
      rw [h.norm_raise, hcΨ] at h5
      have h6 : (e - compValue N (k + 1) * (compValue N (k + 1) + 1)) * c = c' := by exact_mod_cast h5
      have h7 : e - compValue N (k + 1) * (compValue N (k + 1) + 1) = 0 := by
        rw [h4]
        unfold spinValue compValue
        have : (N : ℝ) = n + 2 * j := by exact_mod_cast h1.symm
        rw [this, hk]
        push_cast
        ring
      rw [h7, zero_mul] at h6
      linarith

/-! ## Common eigenstates -/

theorem square_conserves [AddCommMonoid G] (g : ℕ → G) (l : ℕ) :
    ConservesTotal (spinLabel g l) (squareOne l) (squareTwo l) := by
  refine ⟨fun p q hne => if_neg fun h => hne (by rw [h]), fun p q r s hne => ?_⟩
  unfold squareTwo
  by_cases h1 : p.1 / 2 = r.1 / 2
  · by_cases h2 : q.1 / 2 = s.1 / 2
    · have h3 : p.1 % 2 + q.1 % 2 ≠ r.1 % 2 + s.1 % 2 := fun h => hne (by
        unfold spinLabel
        rw [h1, h2]
        exact Prod.ext rfl h)
      unfold spinMatrix up down updown
      rw [if_pos h1, if_pos h2, if_pos h1, if_pos h2, if_pos h1, if_pos h2]
      rcases Nat.mod_two_eq_zero_or_one p.1 with a | a <;> rcases Nat.mod_two_eq_zero_or_one q.1 with b | b <;>
        rcases Nat.mod_two_eq_zero_or_one r.1 with c | c <;> rcases Nat.mod_two_eq_zero_or_one s.1 with d | d <;>
        simp [a, b, c, d] at h3 ⊢
    · simp [spinMatrix, h2]
  · simp [spinMatrix, h1]

/-- The square of the spin commutes with elements that do not act on the spin. -/
theorem square_comm (H U : NDArray ℂ) (Ψ : Wave ℂ N (2 * l)) :
    squareOp (hamiltonOp (spinOne l H) (spinTwo l U) Ψ) = hamiltonOp (spinOne l H) (spinTwo l U) (squareOp Ψ) := by
  have e : squareOp Ψ = fun x => lower (raise Ψ) x + (compOp (compOp Ψ) x + compOp Ψ x) := by
    funext x
    rw [square_lower_raise]
    ring
  funext x
  rw [e, hamiltonOp_add, hamiltonOp_add, square_lower_raise]
  unfold lower raise compOp
  simp only [spin_comm]
  ring

/-- The antisymmetric wave functions with a total and a value of the square of the spin. -/
noncomputable def sectorSpace [AddCommMonoid G] (N : ℕ) (g : ℕ → G) (l : ℕ) (t : (G × ℕ) × ℝ) :
    Submodule ℂ (EuclideanSpace ℂ (Fin N → Fin (2 * l))) where
  carrier := {v | v ∈ totalSpace N (spinLabel g l) t.1 ∧ squareOp (fun x => v x) = fun x => (t.2 : ℂ) * v x}
  add_mem' := fun {v w} hv hw => ⟨Submodule.add_mem _ hv.1 hw.1, funext fun x => by
    have h1 := congrFun hv.2 x
    have h2 := congrFun hw.2 x
    have h3 := hamiltonOp_add (squareOne l) (squareTwo l) (fun x => v x) (fun x => w x) x
    unfold squareOp at h1 h2 ⊢
    simp only [PiLp.add_apply]
    rw [h3, h1, h2]
    ring⟩
  zero_mem' := ⟨Submodule.zero_mem _, funext fun x => by
    have h3 := hamiltonOp_smul (squareOne l) (squareTwo l) 0 (fun _ => 0 : Wave ℂ N (2 * l)) x
    simp only [zero_mul] at h3
    unfold squareOp
    simp only [PiLp.zero_apply]
    rw [h3, mul_zero]⟩
  smul_mem' := fun c v hv => ⟨Submodule.smul_mem _ c hv.1, funext fun x => by
    have h1 := congrFun hv.2 x
    have h3 := hamiltonOp_smul (squareOne l) (squareTwo l) c (fun x => v x) x
    unfold squareOp at h1 ⊢
    simp only [PiLp.smul_apply, smul_eq_mul]
    rw [h3, h1]
    ring⟩

/-- States with an energy, a total and a value of the square of the spin. -/
theorem joint_exists [AddCommMonoid G] {g : ℕ → G} {H U : NDArray ℂ}
    (hh : ∀ p q, star (spinOne l H p q) = spinOne l H q p)
    (hu : ∀ p q r s, star (spinTwo l U p q r s) = spinTwo l U r s p q)
    (hc : ConservesTotal (spinLabel g l) (spinOne l H) (spinTwo l U)) (N : ℕ) :
    ∃ (D : ℕ) (E : ℕ → ℝ) (Ψ : ℕ → Wave ℂ N (2 * l)) (q : ℕ → G × ℕ) (e : ℕ → ℝ),
      LabelledSpectrum (spinLabel g l) (spinOne l H) (spinTwo l U) D E Ψ q ∧
      ∀ i < D, squareOp (Ψ i) = fun x => (e i : ℂ) * Ψ i x := by
  classical
  obtain ⟨D₀, v, Φ₀, q₀, S⟩ := labelled_exists squareOne_herm squareTwo_herm (square_conserves g l) N
  set t : Fin D₀ → (G × ℕ) × ℝ := fun i => (q₀ i, v i) with ht
  have hW : ∀ τ, ∀ w ∈ sectorSpace N g l τ,
      WithLp.toLp 2 (hamiltonOp (spinOne l H) (spinTwo l U) fun x => w x) ∈ sectorSpace N g l τ := fun τ w hw =>
    ⟨⟨hamiltonOp_antisymmetric _ _ hw.1.1, hamilton_total hc hw.1.2⟩, by
      have h1 := square_comm H U (fun x => w x)
      rw [hw.2] at h1
      refine h1.trans (funext fun x => ?_)
      exact hamiltonOp_smul _ _ _ _ x⟩
  choose d e B h1 h2 h3 h4 using fun τ => subspace_basis hh hu (sectorSpace N g l τ) (hW τ)
  have orth : ∀ {τ τ' : (G × ℕ) × ℝ} {Φ Ψ : Wave ℂ N (2 * l)}, WithLp.toLp 2 Φ ∈ sectorSpace N g l τ →
      WithLp.toLp 2 Ψ ∈ sectorSpace N g l τ' → τ ≠ τ' → waveInner Φ Ψ = 0 := fun {τ τ' Φ Ψ} hΦ hΨ hne => by
    by_cases hq : τ.1 = τ'.1
    · exact inner_energies squareOne_herm squareTwo_herm hΦ.2 hΨ.2 fun h => hne (Prod.ext hq h)
    · exact inner_total hΦ.1.2 hΨ.1.2 hq
  have mem₀ : ∀ i : Fin D₀, WithLp.toLp 2 (Φ₀ i) ∈ sectorSpace N g l (t i) := fun i =>
    ⟨⟨S.anti i i.2, S.label i i.2⟩, S.eigen i i.2⟩
  obtain ⟨D, E, Ψ, f, S', hS⟩ := spectrum_of_family (ι := Σ τ : univ.image t, Fin (d τ.1)) (h := spinOne l H)
    (u := spinTwo l U) (e := fun i => e i.1.1 i.2) (B := fun i => B i.1.1 i.2) (fun i => (h1 i.1.1 i.2).1.1)
    (fun i => h2 i.1.1 i.2)
    (fun i j => by
      obtain ⟨⟨τ, hτ⟩, i⟩ := i
      obtain ⟨⟨τ', hτ'⟩, j⟩ := j
      by_cases hq : τ = τ'
      · subst hq
        dsimp only
        rw [h3]
        refine if_congr ⟨fun h => by rw [h], fun h => ?_⟩ rfl rfl
        simpa using h
      · rw [orth (h1 τ i) (h1 τ' j) hq, if_neg]
        intro h
        exact hq (congrArg (fun z : Σ τ : univ.image t, Fin (d τ.1) => z.1.1) h))
    (fun Φ hΦ x => by
      set P : (G × ℕ) × ℝ → Wave ℂ N (2 * l) := fun τ x =>
        ∑ i ∈ univ.filter (fun i => t i = τ), waveInner (Φ₀ i) Φ * Φ₀ i x with hP
      have hPm : ∀ τ, WithLp.toLp 2 (P τ) ∈ sectorSpace N g l τ := fun τ => by
        have : WithLp.toLp 2 (P τ) = ∑ i ∈ univ.filter (fun i => t i = τ), waveInner (Φ₀ i) Φ • WithLp.toLp 2 (Φ₀ i) := by
          ext y
          simp [hP]
        rw [this]
        refine Submodule.sum_mem _ fun i hi => Submodule.smul_mem _ _ ?_
        rw [← (mem_filter.1 hi).2]
        exact mem₀ i
      have hsum : Φ x = ∑ τ ∈ univ.image t, P τ x := by
        rw [S.complete Φ hΦ x, sum_range, ← sum_fiberwise_of_maps_to (s := univ) (t := univ.image t) (g := t)
          fun i _ => mem_image_of_mem t (mem_univ i)]
      have hin : ∀ τ i, waveInner (B τ i) (P τ) = waveInner (B τ i) Φ := fun τ i => by
        have e1 : waveInner (B τ i) Φ = ∑ j : Fin D₀, waveInner (Φ₀ j) Φ * waveInner (B τ i) (Φ₀ j) := by
          conv_lhs => rw [funext (S.complete Φ hΦ)]
          rw [waveInner_comb, sum_range]
        rw [e1, hP, waveInner_comb]
        refine sum_subset (filter_subset _ _) fun j _ hj => ?_
        rw [orth (h1 τ i) (mem₀ j) fun h => hj (mem_filter.2 ⟨mem_univ j, h.symm⟩), mul_zero]
      rw [hsum, Fintype.sum_sigma, ← sum_coe_sort (univ.image t)]
      refine sum_congr rfl fun τ _ => ?_
      rw [h4 τ.1 (P τ.1) (hPm τ.1) x]
      exact sum_congr rfl fun i _ => by rw [hin])
  refine ⟨D, E, Ψ, fun i => if hi : i < D then (f ⟨i, hi⟩).1.1.1 else 0,
    fun i => if hi : i < D then (f ⟨i, hi⟩).1.1.2 else 0, ⟨S', fun i hi => ?_⟩, fun i hi => ?_⟩
  · rw [dif_pos hi, (hS ⟨i, hi⟩).2]
    exact (h1 _ _).1.2
  · dsimp only
    rw [dif_pos hi, (hS ⟨i, hi⟩).2]
    exact (h1 _ _).2

/-! ## Rotating the spins -/

theorem squareTwo_eq (p q r s : Fin (2 * l)) : squareTwo l p q r s =
    if p.1 / 2 = r.1 / 2 ∧ q.1 / 2 = s.1 / 2 then (if p.1 % 2 = s.1 % 2 ∧ q.1 % 2 = r.1 % 2 then 1 else 0) -
      1 / 2 * (if p.1 % 2 = r.1 % 2 ∧ q.1 % 2 = s.1 % 2 then 1 else 0) else 0 := by
  unfold squareTwo spinMatrix up down updown
  by_cases h1 : p.1 / 2 = r.1 / 2
  · by_cases h2 : q.1 / 2 = s.1 / 2
    · simp only [h1, h2, if_true, and_self]
      rcases Nat.mod_two_eq_zero_or_one p.1 with a | a <;> rcases Nat.mod_two_eq_zero_or_one q.1 with b | b <;>
        rcases Nat.mod_two_eq_zero_or_one r.1 with c | c <;> rcases Nat.mod_two_eq_zero_or_one s.1 with d | d <;>
        simp [a, b, c, d] <;> norm_num
    · simp [h2]
  · simp [h1]

/-- The columns of `V` are orthonormal. -/
def UnitaryTwo (V : ℕ → ℕ → ℂ) : Prop := ∀ a < 2, ∀ b < 2, star (V 0 a) * V 0 b + star (V 1 a) * V 1 b = if a = b then 1 else 0

/-- The rotation of the spin of one electron. -/
def rotation (l : ℕ) (V : ℕ → ℕ → ℂ) : Matrix (Fin (2 * l)) (Fin (2 * l)) ℂ := Matrix.of (spinMatrix l V)

theorem rotation_apply (V : ℕ → ℕ → ℂ) (p q : Fin (2 * l)) : rotation l V p q = spinMatrix l V p q := rfl

theorem rotation_star (V : ℕ → ℕ → ℂ) (p q : Fin (2 * l)) :
    (rotation l V).conjTranspose p q = spinMatrix l (fun a b => star (V b a)) p q :=
  spinMatrix_star (fun _ _ => rfl) q p

theorem rotation_sandwich (V σ : ℕ → ℕ → ℂ) (p q : Fin (2 * l)) :
    ((rotation l V).conjTranspose * Matrix.of (spinMatrix l σ) * rotation l V) p q =
      spinMatrix l (fun a b => star (V 0 a) * (σ 0 0 * V 0 b + σ 0 1 * V 1 b) +
        star (V 1 a) * (σ 1 0 * V 0 b + σ 1 1 * V 1 b)) p q := by
  rw [Matrix.mul_assoc]
  simp only [Matrix.mul_apply, rotation_star, rotation_apply, Matrix.of_apply, sum_spin_left]
  unfold spinMatrix
  simp only [show 2 * (p.1 / 2) / 2 = p.1 / 2 by omega, show (2 * (p.1 / 2) + 1) / 2 = p.1 / 2 by omega,
    show 2 * (p.1 / 2) % 2 = 0 by omega, show (2 * (p.1 / 2) + 1) % 2 = 1 by omega]
  by_cases h : p.1 / 2 = q.1 / 2
  · rw [if_pos h, if_pos h, if_pos h]
  · rw [if_neg h, if_neg h, if_neg h]
    ring

theorem rotation_unitary {V : ℕ → ℕ → ℂ} (hV : UnitaryTwo V) : (rotation l V).conjTranspose * rotation l V = 1 := by
  ext p q
  simp only [Matrix.mul_apply, rotation_star, rotation_apply, Matrix.of_apply, sum_spin_left]
  unfold spinMatrix
  simp only [show 2 * (p.1 / 2) / 2 = p.1 / 2 by omega, show (2 * (p.1 / 2) + 1) / 2 = p.1 / 2 by omega,
    show 2 * (p.1 / 2) % 2 = 0 by omega, show (2 * (p.1 / 2) + 1) % 2 = 1 by omega]
  rw [Matrix.one_apply]
  by_cases h : p.1 / 2 = q.1 / 2
  · rw [if_pos h, if_pos h, hV _ (by omega) _ (by omega)]
    refine if_congr ⟨fun h' => Fin.ext (by omega), fun h' => by rw [h']⟩ rfl rfl
  · rw [if_neg h, if_neg h, if_neg fun h' => h (by rw [h'])]
    ring

theorem rotation_one {V : ℕ → ℕ → ℂ} (hV : UnitaryTwo V) (H : NDArray ℂ) (p q : Fin (2 * l)) :
    ((rotation l V).conjTranspose * Matrix.of (spinOne l H) * rotation l V) p q = spinOne l H p q := by
  rw [Matrix.mul_assoc]
  simp only [Matrix.mul_apply, rotation_star, rotation_apply, Matrix.of_apply, sum_spin_left, sum_spin_right]
  unfold spinOne
  simp only [show 2 * (p.1 / 2) / 2 = p.1 / 2 by omega, show (2 * (p.1 / 2) + 1) / 2 = p.1 / 2 by omega,
    show 2 * (p.1 / 2) % 2 = 0 by omega, show (2 * (p.1 / 2) + 1) % 2 = 1 by omega,
    show 2 * (q.1 / 2) / 2 = q.1 / 2 by omega, show (2 * (q.1 / 2) + 1) / 2 = q.1 / 2 by omega,
    show 2 * (q.1 / 2) % 2 = 0 by omega, show (2 * (q.1 / 2) + 1) % 2 = 1 by omega]
  have h := hV (p.1 % 2) (by omega) (q.1 % 2) (by omega)
  simp only [if_true, zero_ne_one, one_ne_zero, if_false, zero_mul, zero_add, add_zero]
  rw [show ∀ a b c d e : ℂ, a * (e * b) + c * (e * d) = e * (a * b + c * d) by intros; ring, h]
  split_ifs <;> ring

theorem rotation_sums (V : ℕ → ℕ → ℂ) (u : Fin (2 * l) → Fin (2 * l) → Fin (2 * l) → Fin (2 * l) → ℂ) (p q r s : Fin (2 * l)) :
    (∑ a, ∑ b, ∑ c, ∑ d, (rotation l V).conjTranspose p a * (rotation l V).conjTranspose q b * u a b c d *
      rotation l V c r * rotation l V d s) =
    ∑ a, spinMatrix l (fun a b => star (V b a)) p a * ∑ b, spinMatrix l (fun a b => star (V b a)) q b *
      ∑ c, (∑ d, u a b c d * spinMatrix l V d s) * spinMatrix l V c r := by
  simp only [rotation_star, mul_sum, sum_mul]
  refine sum_congr rfl fun a _ => sum_congr rfl fun b _ => sum_congr rfl fun c _ => sum_congr rfl fun d _ => ?_
  unfold rotation
  simp only [Matrix.of_apply]
  ring

theorem rotation_two {V : ℕ → ℕ → ℂ} (hV : UnitaryTwo V) (U : NDArray ℂ) (p q r s : Fin (2 * l)) :
    (∑ a, ∑ b, ∑ c, ∑ d, (rotation l V).conjTranspose p a * (rotation l V).conjTranspose q b * spinTwo l U a b c d *
      rotation l V c r * rotation l V d s) = spinTwo l U p q r s := by
  rw [rotation_sums]
  simp only [sum_spin_left, sum_spin_right]
  unfold spinTwo
  simp only [show 2 * (p.1 / 2) / 2 = p.1 / 2 by omega, show (2 * (p.1 / 2) + 1) / 2 = p.1 / 2 by omega,
    show 2 * (p.1 / 2) % 2 = 0 by omega, show (2 * (p.1 / 2) + 1) % 2 = 1 by omega,
    show 2 * (q.1 / 2) / 2 = q.1 / 2 by omega, show (2 * (q.1 / 2) + 1) / 2 = q.1 / 2 by omega,
    show 2 * (q.1 / 2) % 2 = 0 by omega, show (2 * (q.1 / 2) + 1) % 2 = 1 by omega,
    show 2 * (r.1 / 2) / 2 = r.1 / 2 by omega, show (2 * (r.1 / 2) + 1) / 2 = r.1 / 2 by omega,
    show 2 * (r.1 / 2) % 2 = 0 by omega, show (2 * (r.1 / 2) + 1) % 2 = 1 by omega,
    show 2 * (s.1 / 2) / 2 = s.1 / 2 by omega, show (2 * (s.1 / 2) + 1) / 2 = s.1 / 2 by omega,
    show 2 * (s.1 / 2) % 2 = 0 by omega, show (2 * (s.1 / 2) + 1) % 2 = 1 by omega]
  have h1 := hV (p.1 % 2) (by omega) (r.1 % 2) (by omega)
  have h2 := hV (q.1 % 2) (by omega) (s.1 % 2) (by omega)
  simp only [and_self, and_true, true_and, if_true, zero_ne_one, one_ne_zero, if_false, zero_mul, zero_add, add_zero,
    and_false, false_and]
  set w := U.get [p.1 / 2, q.1 / 2, r.1 / 2, s.1 / 2]
  trans w * (star (V 0 (p.1 % 2)) * V 0 (r.1 % 2) + star (V 1 (p.1 % 2)) * V 1 (r.1 % 2)) *
    (star (V 0 (q.1 % 2)) * V 0 (s.1 % 2) + star (V 1 (q.1 % 2)) * V 1 (s.1 % 2))
  · ring
  · rw [h1, h2]
    split_ifs <;> simp_all

theorem rotation_square {V : ℕ → ℕ → ℂ} (hV : UnitaryTwo V) (p q r s : Fin (2 * l)) :
    (∑ a, ∑ b, ∑ c, ∑ d, (rotation l V).conjTranspose p a * (rotation l V).conjTranspose q b * squareTwo l a b c d *
      rotation l V c r * rotation l V d s) = squareTwo l p q r s := by
  rw [rotation_sums]
  simp only [sum_spin_left, sum_spin_right, squareTwo_eq]
  simp only [show 2 * (p.1 / 2) / 2 = p.1 / 2 by omega, show (2 * (p.1 / 2) + 1) / 2 = p.1 / 2 by omega,
    show 2 * (p.1 / 2) % 2 = 0 by omega, show (2 * (p.1 / 2) + 1) % 2 = 1 by omega,
    show 2 * (q.1 / 2) / 2 = q.1 / 2 by omega, show (2 * (q.1 / 2) + 1) / 2 = q.1 / 2 by omega,
    show 2 * (q.1 / 2) % 2 = 0 by omega, show (2 * (q.1 / 2) + 1) % 2 = 1 by omega,
    show 2 * (r.1 / 2) / 2 = r.1 / 2 by omega, show (2 * (r.1 / 2) + 1) / 2 = r.1 / 2 by omega,
    show 2 * (r.1 / 2) % 2 = 0 by omega, show (2 * (r.1 / 2) + 1) % 2 = 1 by omega,
    show 2 * (s.1 / 2) / 2 = s.1 / 2 by omega, show (2 * (s.1 / 2) + 1) / 2 = s.1 / 2 by omega,
    show 2 * (s.1 / 2) % 2 = 0 by omega, show (2 * (s.1 / 2) + 1) % 2 = 1 by omega]
  by_cases hd : p.1 / 2 = r.1 / 2 ∧ q.1 / 2 = s.1 / 2
  · have h1 := hV (p.1 % 2) (by omega) (r.1 % 2) (by omega)
    have h2 := hV (q.1 % 2) (by omega) (s.1 % 2) (by omega)
    have h3 := hV (p.1 % 2) (by omega) (s.1 % 2) (by omega)
    have h4 := hV (q.1 % 2) (by omega) (r.1 % 2) (by omega)
    rw [if_pos hd]
    simp only [if_pos hd, and_self, and_true, true_and, if_true, zero_ne_one, one_ne_zero, if_false, and_false, false_and]
    trans (star (V 0 (p.1 % 2)) * V 0 (s.1 % 2) + star (V 1 (p.1 % 2)) * V 1 (s.1 % 2)) *
        (star (V 0 (q.1 % 2)) * V 0 (r.1 % 2) + star (V 1 (q.1 % 2)) * V 1 (r.1 % 2)) -
      1 / 2 * ((star (V 0 (p.1 % 2)) * V 0 (r.1 % 2) + star (V 1 (p.1 % 2)) * V 1 (r.1 % 2)) *
        (star (V 0 (q.1 % 2)) * V 0 (s.1 % 2) + star (V 1 (q.1 % 2)) * V 1 (s.1 % 2)))
    · ring
    · rw [h1, h2, h3, h4]
      split_ifs <;> simp_all
  · simp only [if_neg hd]
    ring

/-- The rotation of the spins of all electrons. -/
noncomputable def rotate (V : ℕ → ℕ → ℂ) (Ψ : Wave ℂ N (2 * l)) : Wave ℂ N (2 * l) :=
  prodOp (fun _ => (rotation l V).conjTranspose) Ψ

theorem rotate_hamilton {V : ℕ → ℕ → ℂ} (hV : UnitaryTwo V) (H U : NDArray ℂ) (Ψ : Wave ℂ N (2 * l)) :
    hamiltonOp (spinOne l H) (spinTwo l U) (rotate V Ψ) = rotate V (hamiltonOp (spinOne l H) (spinTwo l U) Ψ) := by
  have hC := rotation_unitary (l := l) hV
  have h1 := hamiltonOp_sandwich hC (spinOne l H) (spinTwo l U) (rotate V Ψ)
  unfold rotate at h1 ⊢
  rw [prodOp_inverse (mul_eq_one_comm.1 hC)] at h1
  simp only [rotation_one hV, rotation_two hV] at h1
  exact h1.symm

theorem rotate_square {V : ℕ → ℕ → ℂ} (hV : UnitaryTwo V) (Ψ : Wave ℂ N (2 * l)) :
    squareOp (rotate V Ψ) = rotate V (squareOp Ψ) := by
  have hC := rotation_unitary (l := l) hV
  have h1 := hamiltonOp_sandwich hC (squareOne l) (squareTwo l) (rotate V Ψ)
  unfold rotate at h1
  rw [prodOp_inverse (mul_eq_one_comm.1 hC)] at h1
  have h2 : ∀ p q, ((rotation l V).conjTranspose * Matrix.of (squareOne l) * rotation l V) p q = squareOne l p q := by
    have e : Matrix.of (squareOne l) = (3 / 4 : ℂ) • (1 : Matrix (Fin (2 * l)) (Fin (2 * l)) ℂ) := by
      ext p q
      simp [squareOne, Matrix.one_apply]
    intro p q
    rw [e, Matrix.mul_smul, Matrix.mul_one, Matrix.smul_mul, hC, ← e]
    rfl
  simp only [h2, rotation_square hV] at h1
  exact h1.symm

theorem rotate_one {V : ℕ → ℕ → ℂ} (hV : UnitaryTwo V) (σ : ℕ → ℕ → ℂ) (Ψ : Wave ℂ N (2 * l)) :
    oneBodyOp (spinMatrix l fun a b => star (V 0 a) * (σ 0 0 * V 0 b + σ 0 1 * V 1 b) +
        star (V 1 a) * (σ 1 0 * V 0 b + σ 1 1 * V 1 b)) (rotate V Ψ) = rotate V (oneBodyOp (spinMatrix l σ) Ψ) := by
  have hC := rotation_unitary (l := l) hV
  have h1 := oneBodyOp_sandwich hC (spinMatrix l σ) (rotate V Ψ)
  unfold rotate at h1 ⊢
  rw [prodOp_inverse (mul_eq_one_comm.1 hC)] at h1
  simp only [rotation_sandwich] at h1
  exact h1.symm

theorem rotate_inner {V : ℕ → ℕ → ℂ} (hV : UnitaryTwo V) (Φ Ψ : Wave ℂ N (2 * l)) :
    waveInner (rotate V Φ) (rotate V Ψ) = waveInner Φ Ψ := by
  unfold rotate
  rw [waveInner_prodOp, Matrix.conjTranspose_conjTranspose, prodOp_inverse (mul_eq_one_comm.1 (rotation_unitary hV))]

theorem rotate_complete {V : ℕ → ℕ → ℂ} (hV : UnitaryTwo V) {D : ℕ} {Ψ : ℕ → Wave ℂ N (2 * l)}
    (h : ∀ Φ : Wave ℂ N (2 * l), Antisymmetric Φ → ∀ x, Φ x = ∑ i ∈ range D, waveInner (Ψ i) Φ * Ψ i x)
    {Φ : Wave ℂ N (2 * l)} (hΦ : Antisymmetric Φ) (x) :
    Φ x = ∑ i ∈ range D, waveInner (rotate V (Ψ i)) Φ * rotate V (Ψ i) x := by
  have h1 := h (prodOp (fun _ => rotation l V) Φ) (prodOp_antisymmetric _ hΦ)
  have h2 : Φ x = prodOp (fun _ => (rotation l V).conjTranspose) (prodOp (fun _ => rotation l V) Φ) x := by
    rw [prodOp_inverse (rotation_unitary hV)]
  rw [h2, funext h1, prodOp_comb]
  refine sum_congr rfl fun i _ => ?_
  unfold rotate
  rw [waveInner_prodOp, Matrix.conjTranspose_conjTranspose]

theorem rotate_total [AddCommMonoid G] {g : ℕ → G} (V : ℕ → ℕ → ℂ) {Q : G} {Ψ : Wave ℂ N (2 * l)}
    (h : HasTotal (fun p : Fin (2 * l) => g (p.1 / 2)) Q Ψ) : HasTotal (fun p : Fin (2 * l) => g (p.1 / 2)) Q (rotate V Ψ) := by
  intro x hx
  unfold rotate prodOp
  refine sum_eq_zero fun y _ => ?_
  by_cases hy : ∀ i, (x i).1 / 2 = (y i).1 / 2
  · rw [h y fun hc => hx ?_, mul_zero]
    rw [← hc]
    unfold total
    exact sum_congr rfl fun i _ => by
      dsimp only
      rw [hy]
  · push Not at hy
    obtain ⟨i, hi⟩ := hy
    rw [prod_eq_zero (mem_univ i), zero_mul]
    exact (rotation_star V (x i) (y i)).trans (if_neg hi)

end QS
