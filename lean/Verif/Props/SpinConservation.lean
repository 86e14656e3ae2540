import Verif.Spec.SpinConserved
import Verif.Props.FockSymmetry

/-!
# Spin conservation (C101) and the choice of the spin basis (C102)
-/

namespace QS.Props

open Finset NDArray BasisSet PyM

variable {K T : Type} [PyScalar K]

/-- `1 ⊗ σ / 2`, entry `(p, q)`. -/
def spinAct (σ : NDArray K) (p q : ℕ) : K := if p / 2 = q / 2 then 1 / 2 * σ.get [p % 2, q % 2] else 0

theorem spinAct_left {σ : NDArray K} {l p : ℕ} (hp : p < 2 * l) (f : ℕ → K) :
    ∑ k ∈ range (2 * l), spinAct σ p k * f k =
      1 / 2 * (σ.get [p % 2, 0] * f (2 * (p / 2)) + σ.get [p % 2, 1] * f (2 * (p / 2) + 1)) := by
  rw [sum_range_two_mul, sum_eq_single (p / 2)]
  · rw [sum_two]
    simp only [spinAct, show 2 * (p / 2) / 2 = p / 2 by omega, show (2 * (p / 2) + 1) / 2 = p / 2 by omega,
      show 2 * (p / 2) % 2 = 0 by omega, show (2 * (p / 2) + 1) % 2 = 1 by omega, if_true, add_zero]
    ring
  · intro k _ hne
    rw [sum_two]
    simp only [spinAct, show 2 * k / 2 = k by omega, show (2 * k + 1) / 2 = k by omega, if_neg (Ne.symm hne),
      zero_mul, add_zero]
  · intro h
    exact absurd (mem_range.2 (by omega)) h

theorem spinAct_right {σ : NDArray K} {l q : ℕ} (hq : q < 2 * l) (f : ℕ → K) :
    ∑ k ∈ range (2 * l), f k * spinAct σ k q =
      1 / 2 * (f (2 * (q / 2)) * σ.get [0, q % 2] + f (2 * (q / 2) + 1) * σ.get [1, q % 2]) := by
  rw [sum_range_two_mul, sum_eq_single (q / 2)]
  · rw [sum_two]
    simp only [spinAct, show 2 * (q / 2) / 2 = q / 2 by omega, show (2 * (q / 2) + 1) / 2 = q / 2 by omega,
      show 2 * (q / 2) % 2 = 0 by omega, show (2 * (q / 2) + 1) % 2 = 1 by omega, if_true, add_zero]
    ring
  · intro k _ hne
    rw [sum_two]
    simp only [spinAct, show 2 * k / 2 = k by omega, show (2 * k + 1) / 2 = k by omega, if_neg hne,
      mul_zero, add_zero]
  · intro h
    exact absurd (mem_range.2 (by omega)) h

/-- `S = (1 ⊗ σ/2) s = s (1 ⊗ σ/2)` for the doubled overlap `s`. -/
def IsSpinOf (l : ℕ) (σ s' S : NDArray K) : Prop :=
  ∀ p < 2 * l, ∀ q < 2 * l,
    S.get [p, q] = ∑ k ∈ range (2 * l), spinAct σ p k * s'.get [k, q] ∧
    S.get [p, q] = ∑ k ∈ range (2 * l), s'.get [p, k] * spinAct σ k q

theorem isSpinOf {l : ℕ} {s s' σ S : NDArray K} (hs : IsDoubledOneBody l l s s')
    (hS : ∀ p < 2 * l, ∀ q < 2 * l, S.get [p, q] = 1 / 2 * (s.get [p / 2, q / 2] * σ.get [p % 2, q % 2])) :
    IsSpinOf l σ s' S := by
  intro p hp q hq
  have hp2 : p / 2 < l := by omega
  have hq2 : q / 2 < l := by omega
  have e : ∀ a < 2, s'.get [2 * (p / 2) + a, q] = if a = q % 2 then s.get [p / 2, q / 2] else 0 := by
    intro a ha
    have := hs.2 _ hp2 _ hq2 a ha (q % 2) (by omega)
    rwa [Nat.div_add_mod] at this
  have e' : ∀ a < 2, s'.get [p, 2 * (q / 2) + a] = if p % 2 = a then s.get [p / 2, q / 2] else 0 := by
    intro a ha
    have := hs.2 _ hp2 _ hq2 (p % 2) (by omega) a ha
    rwa [Nat.div_add_mod] at this
  have e0 := e 0 (by omega)
  have e1 := e 1 (by omega)
  have e0' := e' 0 (by omega)
  have e1' := e' 1 (by omega)
  rw [add_zero] at e0 e0'
  rw [hS p hp q hq]
  constructor
  · rw [spinAct_left hp, e0, e1]
    rcases Nat.mod_two_eq_zero_or_one q with h | h <;> simp [h] <;> ring
  · rw [spinAct_right hq, e0', e1']
    rcases Nat.mod_two_eq_zero_or_one p with h | h <;> simp [h] <;> ring

theorem mulAt_spin_left {l : ℕ} {σ s' S t : NDArray K} (h : IsSpinOf l σ s' S) (ht : InverseOf (2 * l) s' t)
    {p q : ℕ} (hp : p < 2 * l) (hq : q < 2 * l) : mulAt (2 * l) S t p q = spinAct σ p q := by
  unfold mulAt
  have : ∀ k ∈ range (2 * l), S.get [p, k] * t.get [k, q] =
      ∑ j ∈ range (2 * l), spinAct σ p j * (s'.get [j, k] * t.get [k, q]) := by
    intro k hk
    rw [(h p hp k (mem_range.1 hk)).1, sum_mul]
    exact sum_congr rfl fun j _ => by ring
  rw [sum_congr rfl this, sum_comm]
  have : ∀ j ∈ range (2 * l), ∑ k ∈ range (2 * l), spinAct σ p j * (s'.get [j, k] * t.get [k, q]) =
      spinAct σ p j * kd j q := by
    intro j hj
    rw [← mul_sum, ← (ht j (mem_range.1 hj) q hq).1]
    rfl
  rw [sum_congr rfl this]
  simp only [kd, mul_ite, mul_one, mul_zero]
  rw [sum_ite_eq' (range (2 * l)) q, if_pos (mem_range.2 hq)]

theorem mulAt_spin_right {l : ℕ} {σ s' S t : NDArray K} (h : IsSpinOf l σ s' S) (ht : InverseOf (2 * l) s' t)
    {p q : ℕ} (hp : p < 2 * l) (hq : q < 2 * l) : mulAt (2 * l) t S p q = spinAct σ p q := by
  unfold mulAt
  have : ∀ k ∈ range (2 * l), t.get [p, k] * S.get [k, q] =
      ∑ j ∈ range (2 * l), t.get [p, k] * s'.get [k, j] * spinAct σ j q := by
    intro k hk
    rw [(h k (mem_range.1 hk) q hq).2, mul_sum]
    exact sum_congr rfl fun j _ => by ring
  rw [sum_congr rfl this, sum_comm]
  have : ∀ j ∈ range (2 * l), ∑ k ∈ range (2 * l), t.get [p, k] * s'.get [k, j] * spinAct σ j q =
      kd p j * spinAct σ j q := by
    intro j hj
    rw [← sum_mul, ← (ht p hp j (mem_range.1 hj)).2]
    rfl
  rw [sum_congr rfl this]
  simp only [kd, ite_mul, one_mul, zero_mul]
  rw [sum_ite_eq (range (2 * l)) p, if_pos (mem_range.2 hp)]

/-- Doubled one-body elements commute with the spin. -/
theorem one_commutes {l : ℕ} {x x' σ s' S t : NDArray K}
    (hx : ∀ p < l, ∀ q < l, ∀ a < 2, ∀ c < 2, x'.get [2 * p + a, 2 * q + c] = if a = c then x.get [p, q] else 0)
    (h : IsSpinOf l σ s' S)
    (ht : InverseOf (2 * l) s' t) : OneCommutes (2 * l) t x' S := by
  intro p hp q hq
  have hp2 : p / 2 < l := by omega
  have hq2 : q / 2 < l := by omega
  have e1 : prodAt (2 * l) x' t S p q = ∑ k ∈ range (2 * l), x'.get [p, k] * spinAct σ k q := by
    unfold prodAt
    refine sum_congr rfl fun i hi => ?_
    rw [← mulAt_spin_right h ht (mem_range.1 hi) hq, mulAt, mul_sum]
    exact sum_congr rfl fun j _ => by ring
  have e2 : prodAt (2 * l) S t x' p q = ∑ k ∈ range (2 * l), spinAct σ p k * x'.get [k, q] := by
    unfold prodAt
    rw [sum_comm]
    refine sum_congr rfl fun i hi => ?_
    rw [← mulAt_spin_left h ht hp (mem_range.1 hi), mulAt, sum_mul]
  have e : ∀ a < 2, x'.get [2 * (p / 2) + a, q] = if a = q % 2 then x.get [p / 2, q / 2] else 0 := by
    intro a ha
    have := hx _ hp2 _ hq2 a ha (q % 2) (by omega)
    rwa [Nat.div_add_mod] at this
  have e' : ∀ a < 2, x'.get [p, 2 * (q / 2) + a] = if p % 2 = a then x.get [p / 2, q / 2] else 0 := by
    intro a ha
    have := hx _ hp2 _ hq2 (p % 2) (by omega) a ha
    rwa [Nat.div_add_mod] at this
  have f0 := e 0 (by omega)
  have f1 := e 1 (by omega)
  have f0' := e' 0 (by omega)
  have f1' := e' 1 (by omega)
  rw [add_zero] at f0 f0'
  rw [e1, e2, spinAct_left hp, spinAct_right hq, f0, f1, f0', f1']
  rcases Nat.mod_two_eq_zero_or_one p with h | h <;> rcases Nat.mod_two_eq_zero_or_one q with h' | h' <;>
    simp [h, h'] <;> ring

/-- Two-body elements that are spin-diagonal, plain or anti-symmetrised, commute with the total spin. -/
theorem total_commutes {l : ℕ} {x u' σ s' S t : NDArray K}
    (hu : IsDoubledTwoBody l x u' ∨ IsDoubledAntiTwoBody l x u') (h : IsSpinOf l σ s' S)
    (ht : InverseOf (2 * l) s' t) : TotalCommutes (2 * l) t S u' := by
  intro p hp q hq r hr s hs
  simp only [sum_add_distrib]
  have c1 : ∑ k ∈ range (2 * l), mulAt (2 * l) S t p k * u'.get [k, q, r, s] =
      ∑ k ∈ range (2 * l), spinAct σ p k * u'.get [k, q, r, s] :=
    sum_congr rfl fun k hk => by rw [mulAt_spin_left h ht hp (mem_range.1 hk)]
  have c2 : ∑ k ∈ range (2 * l), mulAt (2 * l) S t q k * u'.get [p, k, r, s] =
      ∑ k ∈ range (2 * l), spinAct σ q k * u'.get [p, k, r, s] :=
    sum_congr rfl fun k hk => by rw [mulAt_spin_left h ht hq (mem_range.1 hk)]
  have c3 : ∑ k ∈ range (2 * l), u'.get [p, q, k, s] * mulAt (2 * l) t S k r =
      ∑ k ∈ range (2 * l), u'.get [p, q, k, s] * spinAct σ k r :=
    sum_congr rfl fun k hk => by rw [mulAt_spin_right h ht (mem_range.1 hk) hr]
  have c4 : ∑ k ∈ range (2 * l), u'.get [p, q, r, k] * mulAt (2 * l) t S k s =
      ∑ k ∈ range (2 * l), u'.get [p, q, r, k] * spinAct σ k s :=
    sum_congr rfl fun k hk => by rw [mulAt_spin_right h ht (mem_range.1 hk) hs]
  rw [c1, c2, c3, c4, spinAct_left hp, spinAct_left hq, spinAct_right hr, spinAct_right hs]
  obtain ⟨P, a, ha, rfl⟩ : ∃ P a, a < 2 ∧ p = 2 * P + a := ⟨p / 2, p % 2, by omega, by omega⟩
  obtain ⟨Q, b, hb, rfl⟩ : ∃ P a, a < 2 ∧ q = 2 * P + a := ⟨q / 2, q % 2, by omega, by omega⟩
  obtain ⟨R, c, hc, rfl⟩ : ∃ P a, a < 2 ∧ r = 2 * P + a := ⟨r / 2, r % 2, by omega, by omega⟩
  obtain ⟨V, d, hd, rfl⟩ : ∃ P a, a < 2 ∧ s = 2 * P + a := ⟨s / 2, s % 2, by omega, by omega⟩
  have dv : ∀ {P a : ℕ}, a < 2 → (2 * P + a) / 2 = P := by intros; omega
  have md : ∀ {P a : ℕ}, a < 2 → (2 * P + a) % 2 = a := by intros; omega
  rw [dv ha, dv hb, dv hc, dv hd, md ha, md hb, md hc, md hd]
  have hP : P < l := by omega
  have hQ : Q < l := by omega
  have hR : R < l := by omega
  have hV : V < l := by omega
  rcases hu with hu | hu
  · have g := fun a ha b hb c hc d hd => hu.2 P hP Q hQ R hR V hV a ha b hb c hc d hd
    have o : (0 : ℕ) < 2 := by omega
    have o' : (1 : ℕ) < 2 := by omega
    have k1 := g 0 o b hb c hc d hd
    have k2 := g a ha 0 o c hc d hd
    have k3 := g a ha b hb 0 o d hd
    have k4 := g a ha b hb c hc 0 o
    rw [add_zero] at k1 k2 k3 k4
    rw [k1, k2, k3, k4, g 1 o' b hb c hc d hd, g a ha 1 o' c hc d hd, g a ha b hb 1 o' d hd, g a ha b hb c hc 1 o']
    rcases lt_two ha with rfl | rfl <;> rcases lt_two hb with rfl | rfl <;> rcases lt_two hc with rfl | rfl <;>
      rcases lt_two hd with rfl | rfl <;> simp <;> (try ring)
  · have g := fun a ha b hb c hc d hd => hu.2 P hP Q hQ R hR V hV a ha b hb c hc d hd
    have o : (0 : ℕ) < 2 := by omega
    have o' : (1 : ℕ) < 2 := by omega
    have k1 := g 0 o b hb c hc d hd
    have k2 := g a ha 0 o c hc d hd
    have k3 := g a ha b hb 0 o d hd
    have k4 := g a ha b hb c hc 0 o
    rw [add_zero] at k1 k2 k3 k4
    rw [k1, k2, k3, k4, g 1 o' b hb c hc d hd, g a ha 1 o' c hc d hd, g a ha b hb 1 o' d hd, g a ha b hb c hc 1 o']
    rcases lt_two ha with rfl | rfl <;> rcases lt_two hb with rfl | rfl <;> rcases lt_two hc with rfl | rfl <;>
      rcases lt_two hd with rfl | rfl <;> simp <;> (try ring)

/-- The spin matrices after the doubling. -/
theorem general_isSpinOf {b : BasisSet K} {l : ℕ} {a₀ a₁ b₀ b₁ : K} {anti : Bool} {ov s' S : NDArray K}
    (hs' : IsDoubledOneBody l l ov s')
    (hS : (general b l ov a₀ a₁ b₀ b₁ anti).spinX = some S ∨ (general b l ov a₀ a₁ b₀ b₁ anti).spinY = some S ∨
      (general b l ov a₀ a₁ b₀ b₁ anti).spinZ = some S) : ∃ σ, IsSpinOf l σ s' S := by
  obtain ⟨ex, ey, ez, -⟩ := general_spin (b := b) (l := l) (ov := ov) a₀ a₁ b₀ b₁ anti
  have key : ∀ σ : NDArray K, IsSpinOf l σ s' (spinArr ov σ l).toComplex := fun σ =>
    isSpinOf hs' fun p hp q hq => by rw [toComplex_get, spinArr_get hp hq]
  rcases hS with h | h | h
  · rw [ex] at h; cases h; exact ⟨_, key _⟩
  · rw [ey] at h; cases h; exact ⟨_, key _⟩
  · rw [ez] at h; cases h; exact ⟨_, key _⟩

/-- **C101** After `change_to_general_orbital_basis` the one-body elements, every component of the dipole moment and
the two-body elements, anti-symmetrised or not, commute with all three components of the spin, in every basis whose
overlap matrix has an inverse `t`. -/
theorem C101_conserved {b b' : BasisSet K} {l : ℕ} {a₀ a₁ b₀ b₁ : K} {r anti : Bool} {h' s' u' t S : NDArray K}
    (hb : WellFormed b l) (hsp : b.includesSpin = false)
    (h : (changeToGeneralBase [a₀, a₁] [b₀, b₁] anti).run b = (.ok r, b'))
    (eh : b'.h = some h') (es : b'.s = some s') (eu : b'.u = some u') (ht : InverseOf (2 * l) s' t)
    (hS : b'.spinX = some S ∨ b'.spinY = some S ∨ b'.spinZ = some S) :
    OneCommutes (2 * l) t h' S ∧ TotalCommutes (2 * l) t S u' ∧
      ∀ d d', b'.dipole = some d → ∀ i < b.dim, d.item i = .ok d' → OneCommutes (2 * l) t d' S := by
  have hg := (C16_general hb hsp h).2.1
  obtain ⟨ov, hov, -, rfl⟩ := changeToGeneralBase_inv hb hsp h
  have h1 := hg.h
  have h2 := hg.s
  have h3 := hg.u
  have h4 := hg.dipole
  rw [eh] at h1
  rw [hov, es] at h2
  rw [eu] at h3
  obtain ⟨H, eH, -⟩ := hb.h
  obtain ⟨U, eU, -⟩ := hb.u
  rw [eH] at h1
  rw [eU] at h3
  obtain ⟨σ, hσ⟩ := general_isSpinOf h2 hS
  refine ⟨one_commutes h1.2 hσ ht, total_commutes (x := U) ?_ hσ ht, fun d d' ed i hi hd => ?_⟩
  · split_ifs at h3
    · exact .inr h3
    · exact .inl h3
  · rw [ed] at h4
    cases hbd : b.dipole with
    | none => rw [hbd] at h4; exact h4.elim
    | some D =>
      rw [hbd] at h4
      rw [item_ok h4.1 hi] at hd
      cases hd
      refine one_commutes (x := ofFn D.dtype [l, l] fun j => D.get (i :: j)) (fun p hp q hq a ha c hc => ?_) hσ ht
      rw [ofFn_get_of (show InRange [l, l] [p, q] from ⟨hp, hq, trivial⟩),
        ofFn_get_of (show InRange [2 * l, 2 * l] [2 * p + a, 2 * q + c] from ⟨by omega, by omega, trivial⟩)]
      exact h4.2 i hi p hp q hq a ha c hc

theorem prodAt_one {n : ℕ} {t x y : NDArray K} (ht : ∀ p < n, ∀ q < n, t.get [p, q] = kd p q) {p q : ℕ} :
    prodAt n x t y p q = mulAt n x y p q := by
  unfold prodAt mulAt
  refine sum_congr rfl fun i hi => ?_
  rw [sum_eq_single i]
  · rw [ht i (mem_range.1 hi) i (mem_range.1 hi)]; simp [kd]
  · intro j hj hne
    rw [ht i (mem_range.1 hi) j (mem_range.1 hj)]; simp [kd, Ne.symm hne]
  · exact fun h => absurd hi h

/-- **C101** In an orthonormal basis the matrices themselves commute. -/
theorem C101_orthonormal {b b' : BasisSet K} {l : ℕ} {a₀ a₁ b₀ b₁ : K} {r anti : Bool} {s h' S : NDArray K}
    (hb : WellFormed b l) (hsp : b.includesSpin = false)
    (h : (changeToGeneralBase [a₀, a₁] [b₀, b₁] anti).run b = (.ok r, b'))
    (hs : b.s = some s) (hov : ∀ p < l, ∀ q < l, s.get [p, q] = kd p q)
    (eh : b'.h = some h') (hS : b'.spinX = some S ∨ b'.spinY = some S ∨ b'.spinZ = some S) :
    ∀ p < 2 * l, ∀ q < 2 * l, mulAt (2 * l) h' S p q = mulAt (2 * l) S h' p q := by
  have hg := (C16_general hb hsp h).2.1
  obtain ⟨U, eU, -⟩ := hb.u
  have h2 := hg.s
  have h3 := hg.u
  cases es : b'.s with
  | none => rw [hs, es] at h2; exact h2.elim
  | some s' =>
  cases eu : b'.u with
  | none => rw [eU, eu] at h3; split_ifs at h3 <;> exact h3.elim
  | some u' =>
  rw [hs, es] at h2
  have hs' : ∀ p < 2 * l, ∀ q < 2 * l, s'.get [p, q] = kd p q := by
    intro p hp q hq
    have e := h2.2 (p / 2) (by omega) (q / 2) (by omega) (p % 2) (by omega) (q % 2) (by omega)
    rw [Nat.div_add_mod, Nat.div_add_mod] at e
    rw [e, hov _ (by omega) _ (by omega)]
    unfold kd
    split_ifs <;> first | rfl | omega
  have inv : InverseOf (2 * l) s' s' := by
    intro p hp q hq
    have : mulAt (2 * l) s' s' p q = kd p q := by
      unfold mulAt
      rw [sum_eq_single p]
      · rw [hs' p hp p hp, hs' p hp q hq]; simp [kd]
      · intro j hj hne
        rw [hs' p hp j (mem_range.1 hj)]; simp [kd, Ne.symm hne]
      · exact fun h => absurd (mem_range.2 hp) h
    exact ⟨this, this⟩
  intro p hp q hq
  have := (C101_conserved hb hsp h eh es eu inv hS).1 p hp q hq
  rwa [prodAt_one hs', prodAt_one hs'] at this

/-- **C101** The Fock matrix of every general system on the doubled basis, whatever orbitals are occupied, is
diagonal in the spin: no element between a spin-up and a spin-down orbital. -/
theorem C101_fock_diagonal {w : World K T} {i : ℕ} {x : Sys} {b b' : BasisSet K} {l : ℕ} {anti : Bool}
    {F H U : NDArray K} (ok : SysOK w i x b') (hl : x.l = 2 * l) (hh : b.h = some H) (hu : b.u = some U)
    (hg : GeneralOf b b' l anti) (hF : FockOf x b' F) :
    ∀ p < l, ∀ q < l, F.get [2 * p, 2 * q + 1] = 0 ∧ F.get [2 * p + 1, 2 * q] = 0 := by
  obtain ⟨H', eH', -⟩ := ok.wf.h
  obtain ⟨U', eU', -⟩ := ok.wf.u
  have hc : Conserves (fun _ : ℕ => (0 : ℕ)) l H U := ⟨fun _ _ _ _ h => absurd rfl h, fun _ _ _ _ _ _ _ _ h => absurd rfl h⟩
  have hc' := C100_general hg hh hu eH' eU' hc
  rw [← hl] at hc'
  have key := C100_fock ok eH' eU' hF hc'
  refine fun p hp q hq => ⟨key _ (by omega) _ (by omega) ?_, key _ (by omega) _ (by omega) ?_⟩
  · intro e
    have := congrArg Prod.snd e
    simp only at this
    omega
  · intro e
    have := congrArg Prod.snd e
    simp only at this
    omega

/-- **C101** The Fock matrix of a closed-shell general system (the first `k` orbitals of the spatial basis are
occupied with both spin directions) with anti-symmetrised elements commutes with all three components of the spin. -/
theorem C101_fock_closed_shell {w : World K T} {i : ℕ} {x : Sys} {b b' : BasisSet K} {l k : ℕ} {a₀ a₁ b₀ b₁ : K}
    {r : Bool} {F s' t S : NDArray K} (hb : WellFormed b l) (hsp : b.includesSpin = false) (ha : b.antiSym = false)
    (h : (changeToGeneralBase [a₀, a₁] [b₀, b₁] true).run b = (.ok r, b')) (ok : SysOK w i x b')
    (hk : x.kind = .general) (hn : x.n = 2 * k) (hl : x.l = 2 * l) (hF : FockOf x b' F) (es : b'.s = some s')
    (ht : InverseOf (2 * l) s' t) (hS : b'.spinX = some S ∨ b'.spinY = some S ∨ b'.spinZ = some S) :
    OneCommutes (2 * l) t F S := by
  have hg := (C16_general hb hsp h).2.1
  obtain ⟨ov, hov, -, rfl⟩ := changeToGeneralBase_inv hb hsp h
  obtain ⟨H, eH, -⟩ := hb.h
  obtain ⟨U, eU, -⟩ := hb.u
  obtain ⟨H', eH', -⟩ := ok.wf.h
  obtain ⟨U', eU', -⟩ := ok.wf.u
  have h1 := hg.h
  have h2 := hg.s
  have h3 := hg.u
  rw [eH, eH'] at h1
  rw [hov, es] at h2
  rw [eU, eU', if_pos ⟨rfl, ha⟩] at h3
  obtain ⟨σ, hσ⟩ := general_isSpinOf h2 hS
  have hle := ok.size.le
  refine one_commutes (x := ofFn .complex128 [l, l] fun j => fockSpatialAt k H U (j.getD 0 0) (j.getD 1 0))
    (fun p hp q hq a ha c hc => ?_) hσ ht
  rw [ofFn_get_of (show InRange [l, l] [p, q] from ⟨hp, hq, trivial⟩),
    fockOf_get ok eH' eU' hF (by omega) (by omega), hk, fockAt, hn]
  exact fock_doubled (by omega) h1 h3 hp hq ha hc

/-- The two orbitals of `Demo.basis` with an overlap, which has an inverse. -/
def overlapBasis : BasisSet GaussQ :=
  { Demo.basis with s := some (Demo.mat .float64 [[Demo.g 2 0, Demo.g 1 0], [Demo.g 1 0, Demo.g 1 0]]) }

theorem overlapBasis_wf : WellFormed overlapBasis 2 := by
  constructor
  · rfl
  · exact ⟨0, rfl⟩
  · exact ⟨_, rfl, rfl⟩
  · exact ⟨_, rfl, rfl⟩
  · rintro x ⟨⟩; rfl
  · rintro x ⟨⟩; exact ⟨by decide, rfl⟩
  · rintro x ⟨⟩; exact ⟨[3], rfl, rfl⟩
  · rintro x ⟨⟩
  · rintro ⟨⟩
  · rintro x ⟨⟩

/-- The hypotheses of C101 are met in a non-orthogonal basis with a spin basis that is not the standard one, and the
products are not zero. -/
example : ∃ b' h' s' u' t S, (changeToGeneralBase [(⟨3 / 5, 0⟩ : GaussQ), ⟨0, 4 / 5⟩] [⟨4 / 5, 0⟩, ⟨0, -3 / 5⟩]
      true).run overlapBasis = (.ok true, b') ∧ b'.h = some h' ∧ b'.s = some s' ∧ b'.u = some u' ∧
    InverseOf 4 s' t ∧ b'.spinX = some S ∧ s'.get [0, 2] ≠ 0 ∧ prodAt 4 h' t S 1 2 ≠ 0 ∧
    OneCommutes 4 t h' S ∧ TotalCommutes 4 t S u' := by
  obtain ⟨b', h⟩ := C16_succeeds true overlapBasis_wf rfl rfl ortho_345
  obtain ⟨ov, hov, -, rfl⟩ := changeToGeneralBase_inv overlapBasis_wf rfl h
  cases hov
  have inv : InverseOf 4 (dbl1 (Demo.mat .float64 [[Demo.g 2 0, Demo.g 1 0], [Demo.g 1 0, Demo.g 1 0]]) 2 2).toComplex
      (dbl1 (Demo.mat .float64 [[Demo.g 1 0, Demo.g (-1) 0], [Demo.g (-1) 0, Demo.g 2 0]]) 2 2) := by
    unfold InverseOf
    decide +kernel
  have c := C101_conserved overlapBasis_wf rfl h rfl rfl rfl inv (.inl rfl)
  exact ⟨_, _, _, _, _, _, h, rfl, rfl, rfl, inv, rfl, by decide +kernel, by decide +kernel, c.1, c.2.1⟩

/-! ## C102 -/

theorem fierz (x₀ x₁ y₀ y₁ z₀ z₁ w₀ w₁ : K) :
    bk (column [x₀, x₁]) sigmaXMat (column [z₀, z₁]) * bk (column [y₀, y₁]) sigmaXMat (column [w₀, w₁]) +
    bk (column [x₀, x₁]) sigmaYMat (column [z₀, z₁]) * bk (column [y₀, y₁]) sigmaYMat (column [w₀, w₁]) +
    bk (column [x₀, x₁]) sigmaZMat (column [z₀, z₁]) * bk (column [y₀, y₁]) sigmaZMat (column [w₀, w₁]) =
      2 * (spinor x₀ x₁ w₀ w₁ * spinor y₀ y₁ z₀ z₁) - spinor x₀ x₁ z₀ z₁ * spinor y₀ y₁ w₀ w₁ := by
  simp only [sigmaXMat, sigmaYMat, sigmaZMat, bk_lit, spinor]
  linear_combination (star x₀ * z₁ - star x₁ * z₀) * (star y₀ * w₁ - star y₁ * w₀) * (PyScalar.I_mul_I (K := K))

/-- The component `i` of a spinor basis. -/
def spinorOf (a₀ a₁ b₀ b₁ : K) (i : ℕ) : K × K := if i = 0 then (a₀, a₁) else (b₀, b₁)

theorem pauliOf_get (a₀ a₁ b₀ b₁ : K) (m : NDArray K) {a c : ℕ} (ha : a < 2) (hc : c < 2) :
    (pauliOf a₀ a₁ b₀ b₁ m).get [a, c] =
      bk (column [(spinorOf a₀ a₁ b₀ b₁ a).1, (spinorOf a₀ a₁ b₀ b₁ a).2]) m
        (column [(spinorOf a₀ a₁ b₀ b₁ c).1, (spinorOf a₀ a₁ b₀ b₁ c).2]) := by
  rcases lt_two ha with rfl | rfl <;> rcases lt_two hc with rfl | rfl <;> rfl

theorem spinorOf_ortho {a₀ a₁ b₀ b₁ : K} (h : OrthoSpin a₀ a₁ b₀ b₁) {a c : ℕ} (ha : a < 2) (hc : c < 2) :
    spinor (spinorOf a₀ a₁ b₀ b₁ a).1 (spinorOf a₀ a₁ b₀ b₁ a).2 (spinorOf a₀ a₁ b₀ b₁ c).1
      (spinorOf a₀ a₁ b₀ b₁ c).2 = kd a c := by
  have hba : spinor b₀ b₁ a₀ a₁ = 0 := by
    have := congrArg star h.ab
    simp only [spinor, star_add, star_mul', star_star, star_zero] at this
    simp only [spinor]
    linear_combination this
  rcases lt_two ha with rfl | rfl <;> rcases lt_two hc with rfl | rfl <;>
    simp [spinorOf, kd, h.aa, h.bb, h.ab, hba]

theorem fierz_pauli {a₀ a₁ b₀ b₁ : K} (h : OrthoSpin a₀ a₁ b₀ b₁) {a b c d : ℕ} (ha : a < 2) (hb : b < 2)
    (hc : c < 2) (hd : d < 2) :
    (pauliOf a₀ a₁ b₀ b₁ sigmaXMat).get [a, c] * (pauliOf a₀ a₁ b₀ b₁ sigmaXMat).get [b, d] +
    (pauliOf a₀ a₁ b₀ b₁ sigmaYMat).get [a, c] * (pauliOf a₀ a₁ b₀ b₁ sigmaYMat).get [b, d] +
    (pauliOf a₀ a₁ b₀ b₁ sigmaZMat).get [a, c] * (pauliOf a₀ a₁ b₀ b₁ sigmaZMat).get [b, d] =
      2 * (kd a d * kd b c) - kd a c * kd b d := by
  simp only [pauliOf_get _ _ _ _ _ ha hc, pauliOf_get _ _ _ _ _ hb hd]
  rw [fierz, spinorOf_ortho h ha hd, spinorOf_ortho h hb hc, spinorOf_ortho h ha hc, spinorOf_ortho h hb hd]

/-- The elements of `Σ_i S_i(1) S_i(2)` between products of functions with overlap `s` and standard spin: two times
the exchange of the spins minus one, divided by four. -/
def spinDot (s : NDArray K) (p q r v a b c d : ℕ) : K :=
  1 / 4 * (s.get [p, r] * s.get [q, v]) * (2 * (kd a d * kd b c) - kd a c * kd b d)

/-- **C102** The two-body elements of the squared spin are those of (2 · exchange of the spins − 1)/4 per pair, whatever
orthonormal spin basis is chosen. -/
theorem C102_spin_2_tb {b b' : BasisSet K} {l : ℕ} {a₀ a₁ b₀ b₁ : K} {r anti : Bool} {s : NDArray K}
    (hb : WellFormed b l) (hsp : b.includesSpin = false)
    (h : (changeToGeneralBase [a₀, a₁] [b₀, b₁] anti).run b = (.ok r, b'))
    (ho : OrthoSpin a₀ a₁ b₀ b₁) (hs : b.s = some s) :
    ∃ tb, b'.spin2tb = some tb ∧ tb.shape = [2 * l, 2 * l, 2 * l, 2 * l] ∧
      ∀ p < l, ∀ q < l, ∀ t < l, ∀ v < l, ∀ a < 2, ∀ e < 2, ∀ c < 2, ∀ d < 2,
        tb.get [2 * p + a, 2 * q + e, 2 * t + c, 2 * v + d] =
          if anti = true ∧ b.antiSym = false then spinDot s p q t v a e c d - spinDot s p q v t a e d c
          else spinDot s p q t v a e c d := by
  obtain ⟨ov, hs', rfl, rfl⟩ := changeToGeneralBase_inv hb hsp h
  obtain rfl : ov = s := by rw [hs] at hs'; exact (Option.some.inj hs').symm
  have key : ∀ p < l, ∀ q < l, ∀ t < l, ∀ v < l, ∀ a < 2, ∀ e < 2, ∀ c < 2, ∀ d < 2,
      (spin2tbArr (spinArr ov (pauliOf a₀ a₁ b₀ b₁ sigmaXMat) l) (spinArr ov (pauliOf a₀ a₁ b₀ b₁ sigmaYMat) l)
        (spinArr ov (pauliOf a₀ a₁ b₀ b₁ sigmaZMat) l) (2 * l)).get [2 * p + a, 2 * q + e, 2 * t + c, 2 * v + d] =
        spinDot ov p q t v a e c d := by
    intro p hp q hq t ht v hv a ha e he c hc d hd
    rw [spin2tbArr_get (by omega) (by omega) (by omega) (by omega)]
    simp only [spinArr_get (show 2 * p + a < 2 * l by omega) (show 2 * t + c < 2 * l by omega),
      spinArr_get (show 2 * q + e < 2 * l by omega) (show 2 * v + d < 2 * l by omega), idx_div ha, idx_div he,
      idx_div hc, idx_div hd, idx_mod ha, idx_mod he, idx_mod hc, idx_mod hd]
    rw [spinDot, ← fierz_pauli ho ha he hc hd]
    ring
  cases anti with
  | false =>
    refine ⟨_, (general_spin2tb a₀ a₁ b₀ b₁).1, rfl, fun p hp q hq t ht v hv a ha e he c hc d hd => ?_⟩
    rw [if_neg (by simp), toComplex_get, key p hp q hq t ht v hv a ha e he c hc d hd]
  | true =>
    cases han : b.antiSym with
    | false =>
      refine ⟨_, (general_spin2tb a₀ a₁ b₀ b₁).2 han, rfl, fun p hp q hq t ht v hv a ha e he c hc d hd => ?_⟩
      rw [if_pos (by simp), toComplex_get, asym_get (by omega) (by omega) (by omega) (by omega),
        key p hp q hq t ht v hv a ha e he c hc d hd, key p hp q hq v hv t ht a ha e he d hd c hc]
    | true =>
      have : (general b l ov a₀ a₁ b₀ b₁ true).spin2tb = (general b l ov a₀ a₁ b₀ b₁ false).spin2tb := by
        simp [general, antiSymmed, withSpin, han, casted]
      refine ⟨_, this.trans (general_spin2tb a₀ a₁ b₀ b₁).1, rfl,
        fun p hp q hq t ht v hv a ha e he c hc d hd => ?_⟩
      rw [if_neg (by simp), toComplex_get, key p hp q hq t ht v hv a ha e he c hc d hd]

/-- **C102** The choice of the orthonormal spin basis changes only the spinors, the Pauli matrices and the spin
matrices: everything else is the same array. -/
theorem C102_independent {b b₁ b₂ : BasisSet K} {l : ℕ} {x y x' y' : K × K} {r₁ r₂ anti : Bool}
    (hb : WellFormed b l) (hsp : b.includesSpin = false)
    (h₁ : (changeToGeneralBase [x.1, x.2] [y.1, y.2] anti).run b = (.ok r₁, b₁))
    (h₂ : (changeToGeneralBase [x'.1, x'.2] [y'.1, y'.2] anti).run b = (.ok r₂, b₂)) :
    b₂ = { b₁ with a := b₂.a, b := b₂.b, sigmaX := b₂.sigmaX, sigmaY := b₂.sigmaY, sigmaZ := b₂.sigmaZ,
                   spinX := b₂.spinX, spinY := b₂.spinY, spinZ := b₂.spinZ, spin2 := b₂.spin2,
                   spin2tb := b₂.spin2tb } := by
  obtain ⟨ov, hs, -, rfl⟩ := changeToGeneralBase_inv hb hsp h₁
  obtain ⟨ov', hs', -, rfl⟩ := changeToGeneralBase_inv hb hsp h₂
  obtain rfl : ov = ov' := by rw [hs] at hs'; exact Option.some.inj hs'
  cases anti <;> cases han : b.antiSym <;> simp [general, antiSymmed, withSpin, casted, han, BasisSet.bra]

/-- **C102** The spin matrices for two orthonormal spin bases are related by the change of basis `W[i,j] = ⟨χ_i|χ'_j⟩`. -/
theorem C102_rotated {b b₁ b₂ : BasisSet K} {l : ℕ} {a₀ a₁ c₀ c₁ a₀' a₁' c₀' c₁' : K} {r₁ r₂ anti : Bool}
    (hb : WellFormed b l) (hsp : b.includesSpin = false)
    (h₁ : (changeToGeneralBase [a₀, a₁] [c₀, c₁] anti).run b = (.ok r₁, b₁))
    (h₂ : (changeToGeneralBase [a₀', a₁'] [c₀', c₁'] anti).run b = (.ok r₂, b₂))
    (ho : OrthoSpin a₀ a₁ c₀ c₁) {W : ℕ → ℕ → K}
    (hW : ∀ i j, W i j = spinor (spinorOf a₀ a₁ c₀ c₁ i).1 (spinorOf a₀ a₁ c₀ c₁ i).2
      (spinorOf a₀' a₁' c₀' c₁' j).1 (spinorOf a₀' a₁' c₀' c₁' j).2) {S S' : NDArray K}
    (hS : b₁.spinX = some S ∧ b₂.spinX = some S' ∨ b₁.spinY = some S ∧ b₂.spinY = some S' ∨
      b₁.spinZ = some S ∧ b₂.spinZ = some S') :
    ∀ p < l, ∀ q < l, ∀ a < 2, ∀ c < 2, S'.get [2 * p + a, 2 * q + c] =
      ∑ i ∈ range 2, ∑ j ∈ range 2, star (W i a) * S.get [2 * p + i, 2 * q + j] * W j c := by
  obtain ⟨ov, hs, -, rfl⟩ := changeToGeneralBase_inv hb hsp h₁
  obtain ⟨ov', hs', -, rfl⟩ := changeToGeneralBase_inv hb hsp h₂
  obtain rfl : ov = ov' := by rw [hs] at hs'; exact Option.some.inj hs'
  obtain ⟨ex, ey, ez, -⟩ := general_spin (b := b) (l := l) (ov := ov) a₀ a₁ c₀ c₁ anti
  obtain ⟨ex', ey', ez', -⟩ := general_spin (b := b) (l := l) (ov := ov) a₀' a₁' c₀' c₁' anti
  obtain ⟨k1, k2, k3, k4⟩ := ho.complete
  have key : ∀ m₀ m₁ m₂ m₃ : K, ∀ p < l, ∀ q < l, ∀ a < 2, ∀ c < 2,
      (spinArr ov (pauliOf a₀' a₁' c₀' c₁' (lit22 m₀ m₁ m₂ m₃)) l).toComplex.get [2 * p + a, 2 * q + c] =
      ∑ i ∈ range 2, ∑ j ∈ range 2, star (W i a) *
        (spinArr ov (pauliOf a₀ a₁ c₀ c₁ (lit22 m₀ m₁ m₂ m₃)) l).toComplex.get [2 * p + i, 2 * q + j] * W j c := by
    intro m₀ m₁ m₂ m₃ p hp q hq a ha c hc
    have e : ∀ i ∈ range 2, ∀ j ∈ range 2,
        (spinArr ov (pauliOf a₀ a₁ c₀ c₁ (lit22 m₀ m₁ m₂ m₃)) l).toComplex.get [2 * p + i, 2 * q + j] =
        1 / 2 * (ov.get [p, q] * (pauliOf a₀ a₁ c₀ c₁ (lit22 m₀ m₁ m₂ m₃)).get [i, j]) := by
      intro i hi j hj
      have hi := mem_range.1 hi
      have hj := mem_range.1 hj
      rw [toComplex_get, spinArr_get (by omega) (by omega), idx_div hi, idx_div hj, idx_mod hi, idx_mod hj]
    rw [sum_congr rfl fun i hi => sum_congr rfl fun j hj => by rw [e i hi j hj]]
    rw [toComplex_get, spinArr_get (by omega) (by omega), idx_div ha, idx_div hc, idx_mod ha, idx_mod hc,
      pauliOf_get _ _ _ _ _ ha hc, bk_lit]
    simp only [sum_two, hW, pauliOf_get00, pauliOf_get01, pauliOf_get10, pauliOf_get11]
    generalize spinorOf a₀' a₁' c₀' c₁' a = y
    generalize spinorOf a₀' a₁' c₀' c₁' c = z
    simp only [spinorOf, if_true, one_ne_zero, if_false, spinor, star_add, star_mul', star_star]
    linear_combination -(1 / 2) * ov.get [p, q] *
      ((star y.1 * (m₀ * ((a₀ * star a₀ + c₀ * star c₀) * z.1 + (a₀ * star a₁ + c₀ * star c₁) * z.2) +
          m₁ * ((a₁ * star a₀ + c₁ * star c₀) * z.1 + (a₁ * star a₁ + c₁ * star c₁) * z.2)) +
        z.1 * (star y.1 * m₀ + star y.2 * m₂)) * k1 +
      (star y.2 * (m₀ * ((a₀ * star a₀ + c₀ * star c₀) * z.1 + (a₀ * star a₁ + c₀ * star c₁) * z.2) +
          m₁ * ((a₁ * star a₀ + c₁ * star c₀) * z.1 + (a₁ * star a₁ + c₁ * star c₁) * z.2)) +
        z.1 * (star y.1 * m₁ + star y.2 * m₃)) * k3 +
      (star y.1 * (m₂ * ((a₀ * star a₀ + c₀ * star c₀) * z.1 + (a₀ * star a₁ + c₀ * star c₁) * z.2) +
          m₃ * ((a₁ * star a₀ + c₁ * star c₀) * z.1 + (a₁ * star a₁ + c₁ * star c₁) * z.2)) +
        z.2 * (star y.1 * m₀ + star y.2 * m₂)) * k2 +
      (star y.2 * (m₂ * ((a₀ * star a₀ + c₀ * star c₀) * z.1 + (a₀ * star a₁ + c₀ * star c₁) * z.2) +
          m₃ * ((a₁ * star a₀ + c₁ * star c₀) * z.1 + (a₁ * star a₁ + c₁ * star c₁) * z.2)) +
        z.2 * (star y.1 * m₁ + star y.2 * m₃)) * k4)
  rcases hS with ⟨h, h'⟩ | ⟨h, h'⟩ | ⟨h, h'⟩
  · rw [ex] at h; rw [ex'] at h'; cases h; cases h'; exact key _ _ _ _
  · rw [ey] at h; rw [ey'] at h'; cases h; cases h'; exact key _ _ _ _
  · rw [ez] at h; rw [ez'] at h'; cases h; cases h'; exact key _ _ _ _

/-- **C102** The matrix `spin_2` does not depend on the choice of the orthonormal spin basis. -/
theorem C102_spin_2 {b b₁ b₂ : BasisSet K} {l : ℕ} {a₀ a₁ c₀ c₁ a₀' a₁' c₀' c₁' : K} {r₁ r₂ anti anti' : Bool}
    (hb : WellFormed b l) (hsp : b.includesSpin = false)
    (h₁ : (changeToGeneralBase [a₀, a₁] [c₀, c₁] anti).run b = (.ok r₁, b₁))
    (h₂ : (changeToGeneralBase [a₀', a₁'] [c₀', c₁'] anti').run b = (.ok r₂, b₂))
    (ho : OrthoSpin a₀ a₁ c₀ c₁) (ho' : OrthoSpin a₀' a₁' c₀' c₁') :
    ∃ x y, b₁.spin2 = some x ∧ b₂.spin2 = some y ∧ ∀ p < 2 * l, ∀ q < 2 * l, x.get [p, q] = y.get [p, q] := by
  obtain ⟨s, hs, -, -⟩ := changeToGeneralBase_inv hb hsp h₁
  obtain ⟨x, ex, hx⟩ := C20_actual hb hsp h₁ ho hs
  obtain ⟨y, ey, hy⟩ := C20_actual hb hsp h₂ ho' hs
  refine ⟨x, y, ex, ey, fun p hp q hq => ?_⟩
  have e := hx (p / 2) (by omega) (q / 2) (by omega) (p % 2) (by omega) (q % 2) (by omega)
  have e' := hy (p / 2) (by omega) (q / 2) (by omega) (p % 2) (by omega) (q % 2) (by omega)
  rw [Nat.div_add_mod, Nat.div_add_mod] at e e'
  rw [e, e']

/-- The standard spin basis and another one: the spin matrices differ, `spin_2_tb` does not. -/
example : ∃ b₁ b₂ S S', (changeToGeneralBase [(1 : GaussQ), 0] [0, 1] true).run Demo.basis = (.ok true, b₁) ∧
    (changeToGeneralBase [(⟨3 / 5, 0⟩ : GaussQ), ⟨0, 4 / 5⟩] [⟨4 / 5, 0⟩, ⟨0, -3 / 5⟩] true).run Demo.basis =
      (.ok true, b₂) ∧ b₁.spinZ = some S ∧ b₂.spinZ = some S' ∧ S.get [0, 0] ≠ S'.get [0, 0] ∧ b₁.h = b₂.h := by
  have o : OrthoSpin (1 : GaussQ) 0 0 1 := by constructor <;> decide +kernel
  obtain ⟨b₁, h₁⟩ := C16_succeeds true Demo.basis_wf rfl rfl o
  obtain ⟨b₂, h₂⟩ := C16_succeeds true Demo.basis_wf rfl rfl ortho_345
  obtain ⟨ov, hov, -, rfl⟩ := changeToGeneralBase_inv Demo.basis_wf rfl h₁
  obtain ⟨ov, hov', -, rfl⟩ := changeToGeneralBase_inv Demo.basis_wf rfl h₂
  cases hov
  cases hov'
  exact ⟨_, _, _, _, h₁, h₂, rfl, rfl, by decide +kernel, rfl⟩

end QS.Props
