import Verif.Lemmas.ManyBodySpin
import Verif.Props.ManyBodyChange
import Verif.Props.SpinConservation

/-!
# Property C108: the spin of `N` particles

`oneBodyOp (arrayOne _ S)` is the component of the total spin of `N` particles made from a stored spin matrix.
-/

namespace QS.Props

open Finset NDArray BasisSet PyM Demo Function

variable {K T : Type} [PyScalar K]

/-- What the doubling of an orthonormal basis gives: the overlap and the spin matrices. -/
theorem orthonormal_doubled {b b' : BasisSet K} {l : ℕ} {a₀ a₁ b₀ b₁ : K} {r anti : Bool} {s : NDArray K}
    (hb : WellFormed b l) (hsp : b.includesSpin = false)
    (h : (changeToGeneralBase [a₀, a₁] [b₀, b₁] anti).run b = (.ok r, b'))
    (hs : b.s = some s) (hov : ∀ p < l, ∀ q < l, s.get [p, q] = kd p q) :
    (∃ s', b'.s = some s' ∧ (∀ p < 2 * l, ∀ q < 2 * l, s'.get [p, q] = kd p q) ∧ InverseOf (2 * l) s' s') ∧
    (∀ S, b'.spinX = some S → ∀ p < 2 * l, ∀ q < 2 * l, S.get [p, q] = spinAct (pauliOf a₀ a₁ b₀ b₁ sigmaXMat) p q) ∧
    (∀ S, b'.spinY = some S → ∀ p < 2 * l, ∀ q < 2 * l, S.get [p, q] = spinAct (pauliOf a₀ a₁ b₀ b₁ sigmaYMat) p q) ∧
    (∀ S, b'.spinZ = some S → ∀ p < 2 * l, ∀ q < 2 * l, S.get [p, q] = spinAct (pauliOf a₀ a₁ b₀ b₁ sigmaZMat) p q) := by
  have hg := (C16_general hb hsp h).2.1
  obtain ⟨ov, hs', rfl, rfl⟩ := changeToGeneralBase_inv hb hsp h
  obtain rfl : ov = s := by rw [hs] at hs'; exact (Option.some.inj hs').symm
  constructor
  · have h2 := hg.s
    cases es : (general b l ov a₀ a₁ b₀ b₁ anti).s with
    | none => rw [hs, es] at h2; exact h2.elim
    | some s' =>
      rw [hs, es] at h2
      have hs' : ∀ p < 2 * l, ∀ q < 2 * l, s'.get [p, q] = kd p q := by
        intro p hp q hq
        have e := h2.2 (p / 2) (by omega) (q / 2) (by omega) (p % 2) (by omega) (q % 2) (by omega)
        rw [Nat.div_add_mod, Nat.div_add_mod] at e
        rw [e, hov _ (by omega) _ (by omega)]
        unfold kd
        split_ifs <;> first | rfl | omega
      refine ⟨s', rfl, hs', fun p hp q hq => ?_⟩
      have : mulAt (2 * l) s' s' p q = kd p q := by
        unfold mulAt
        rw [sum_eq_single p]
        · rw [hs' p hp p hp, hs' p hp q hq]; simp [kd]
        · intro j hj hne
          rw [hs' p hp j (mem_range.1 hj)]; simp [kd, Ne.symm hne]
        · exact fun h => absurd (mem_range.2 hp) h
      exact ⟨this, this⟩
  obtain ⟨ex, ey, ez, -⟩ := general_spin (b := b) (l := l) (ov := ov) a₀ a₁ b₀ b₁ anti
  have key : ∀ σ : NDArray K, ∀ p < 2 * l, ∀ q < 2 * l, (spinArr ov σ l).toComplex.get [p, q] = spinAct σ p q := by
    intro σ p hp q hq
    rw [toComplex_get, spinArr_get hp hq, hov _ (by omega) _ (by omega), spinAct, kd]
    split_ifs <;> ring
  refine ⟨fun S e => ?_, fun S e => ?_, fun S e => ?_⟩
  · rw [ex] at e; cases e; exact key _
  · rw [ey] at e; cases e; exact key _
  · rw [ez] at e; cases e; exact key _

theorem mulAt_id_right {n : ℕ} {x t : NDArray K} (ht : ∀ p < n, ∀ q < n, t.get [p, q] = kd p q) {p q : ℕ} (hq : q < n) :
    mulAt n x t p q = x.get [p, q] := by
  unfold mulAt
  rw [sum_eq_single q]
  · rw [ht q hq q hq]; simp [kd]
  · intro j hj hne
    rw [ht j (mem_range.1 hj) q hq]; simp [kd, hne]
  · exact fun h => absurd (mem_range.2 hq) h

theorem mulAt_id_left {n : ℕ} {x t : NDArray K} (ht : ∀ p < n, ∀ q < n, t.get [p, q] = kd p q) {p q : ℕ} (hp : p < n) :
    mulAt n t x p q = x.get [p, q] := by
  unfold mulAt
  rw [sum_eq_single p]
  · rw [ht p hp p hp]; simp [kd]
  · intro j hj hne
    rw [ht p hp j (mem_range.1 hj)]; simp [kd, Ne.symm hne]
  · exact fun h => absurd (mem_range.2 hp) h

theorem oneBodyOp_zero {N L : ℕ} (Ψ : Wave K N L) (x : Fin N → Fin L) : oneBodyOp (fun _ _ => 0) Ψ x = 0 := by
  simp [oneBodyOp]

theorem twoBodyOp_zero {N L : ℕ} (Ψ : Wave K N L) (x : Fin N → Fin L) : twoBodyOp (fun _ _ _ _ => 0) Ψ x = 0 := by
  simp [twoBodyOp]

/-- **C108** The operators made from the one- and two-body elements after the doubling of an orthonormal basis,
anti-symmetrised or not, commute with all components of the total spin of `N` particles. -/
theorem C108_conserved {b b' : BasisSet K} {l : ℕ} {a₀ a₁ b₀ b₁ : K} {r anti : Bool} {s h' u' S : NDArray K}
    (hb : WellFormed b l) (hsp : b.includesSpin = false)
    (h : (changeToGeneralBase [a₀, a₁] [b₀, b₁] anti).run b = (.ok r, b'))
    (hs : b.s = some s) (hov : ∀ p < l, ∀ q < l, s.get [p, q] = kd p q)
    (eh : b'.h = some h') (eu : b'.u = some u') (hS : b'.spinX = some S ∨ b'.spinY = some S ∨ b'.spinZ = some S)
    (N : ℕ) (Ψ : Wave K N (2 * l)) :
    oneBodyOp (arrayOne (2 * l) S) (oneBodyOp (arrayOne (2 * l) h') Ψ) =
      oneBodyOp (arrayOne (2 * l) h') (oneBodyOp (arrayOne (2 * l) S) Ψ) ∧
    oneBodyOp (arrayOne (2 * l) S) (twoBodyOp (arrayTwo (2 * l) u') Ψ) =
      twoBodyOp (arrayTwo (2 * l) u') (oneBodyOp (arrayOne (2 * l) S) Ψ) ∧
    oneBodyOp (arrayOne (2 * l) S) (hamiltonOp (arrayOne (2 * l) h') (arrayTwo (2 * l) u') Ψ) =
      hamiltonOp (arrayOne (2 * l) h') (arrayTwo (2 * l) u') (oneBodyOp (arrayOne (2 * l) S) Ψ) := by
  obtain ⟨⟨s', es, hs', inv⟩, -⟩ := orthonormal_doubled hb hsp h hs hov
  obtain ⟨c1, c2, -⟩ := C101_conserved hb hsp h eh es eu inv hS
  have d1 : oneBodyOp (arrayOne (2 * l) S) (oneBodyOp (arrayOne (2 * l) h') Ψ) =
      oneBodyOp (arrayOne (2 * l) h') (oneBodyOp (arrayOne (2 * l) S) Ψ) := by
    funext x
    rw [← sub_eq_zero, oneBodyOp_comm, ← oneBodyOp_zero Ψ x]
    congr 1
    funext p q
    have := c1 p p.2 q q.2
    rw [prodAt_one hs', prodAt_one hs'] at this
    simp only [mulAt, Finset.sum_range] at this
    rw [sub_eq_zero]
    exact this.symm
  have d2 : oneBodyOp (arrayOne (2 * l) S) (twoBodyOp (arrayTwo (2 * l) u') Ψ) =
      twoBodyOp (arrayTwo (2 * l) u') (oneBodyOp (arrayOne (2 * l) S) Ψ) := by
    funext x
    rw [← sub_eq_zero, oneBodyOp_twoBodyOp_comm, ← twoBodyOp_zero Ψ x]
    congr 1
    funext p q t v
    have := c2 p p.2 q q.2 t t.2 v v.2
    rw [sub_eq_zero]
    rw [sum_congr (g := fun k => S.get [p.1, k] * u'.get [k, q.1, t.1, v.1] + S.get [q.1, k] * u'.get [p.1, k, t.1, v.1])
        rfl fun k hk => by rw [mulAt_id_right hs' (mem_range.1 hk), mulAt_id_right hs' (mem_range.1 hk)],
      sum_congr (s₁ := range (2 * l)) (f := fun k => u'.get [p.1, q.1, k, v.1] * mulAt (2 * l) s' S k t.1 + _)
        (g := fun k => u'.get [p.1, q.1, k, v.1] * S.get [k, t.1] + u'.get [p.1, q.1, t.1, k] * S.get [k, v.1])
        rfl fun k hk => by rw [mulAt_id_left hs' (mem_range.1 hk), mulAt_id_left hs' (mem_range.1 hk)]] at this
    simp only [Finset.sum_range] at this
    exact this
  refine ⟨d1, d2, ?_⟩
  have add : ∀ (Φ₁ Φ₂ : Wave K N (2 * l)), oneBodyOp (arrayOne (2 * l) S) (fun x => Φ₁ x + 1 / 2 * Φ₂ x) =
      fun x => oneBodyOp (arrayOne (2 * l) S) Φ₁ x + 1 / 2 * oneBodyOp (arrayOne (2 * l) S) Φ₂ x := by
    intro Φ₁ Φ₂
    funext x
    simp only [oneBodyOp, mul_sum, ← sum_add_distrib]
    exact sum_congr rfl fun i _ => sum_congr rfl fun y _ => by ring
  unfold hamiltonOp
  rw [add, d1, d2]

/-- **C108** The total spin of `N` particles obeys the algebra of angular momenta. -/
theorem C108_algebra {b b' : BasisSet K} {l : ℕ} {a₀ a₁ b₀ b₁ : K} {r anti : Bool} {s : NDArray K}
    (hb : WellFormed b l) (hsp : b.includesSpin = false)
    (h : (changeToGeneralBase [a₀, a₁] [b₀, b₁] anti).run b = (.ok r, b')) (ho : OrthoSpin a₀ a₁ b₀ b₁)
    (hs : b.s = some s) (hov : ∀ p < l, ∀ q < l, s.get [p, q] = kd p q) :
    ∃ Sx Sy Sz, b'.spinX = some Sx ∧ b'.spinY = some Sy ∧ b'.spinZ = some Sz ∧
      ∀ (N : ℕ) (Ψ : Wave K N (2 * l)) (x : Fin N → Fin (2 * l)),
        let X := oneBodyOp (N := N) (arrayOne (2 * l) Sx)
        let Y := oneBodyOp (N := N) (arrayOne (2 * l) Sy)
        let Z := oneBodyOp (N := N) (arrayOne (2 * l) Sz)
        X (Y Ψ) x - Y (X Ψ) x = PyScalar.I * Z Ψ x ∧ Y (Z Ψ) x - Z (Y Ψ) x = PyScalar.I * X Ψ x ∧
          Z (X Ψ) x - X (Z Ψ) x = PyScalar.I * Y Ψ x := by
  obtain ⟨Sx, Sy, Sz, s2, tb, ex, ey, ez, -, -, am, -⟩ := C19_angular_momentum hb hsp h ho hs hov
  refine ⟨Sx, Sy, Sz, ex, ey, ez, fun N Ψ x => ?_⟩
  have key : ∀ {A B C : NDArray K}, (∀ p < 2 * l, ∀ q < 2 * l, commAt (2 * l) A B p q = PyScalar.I * C.get [p, q]) →
      oneBodyOp (arrayOne (2 * l) A) (oneBodyOp (arrayOne (2 * l) B) Ψ) x -
        oneBodyOp (arrayOne (2 * l) B) (oneBodyOp (arrayOne (2 * l) A) Ψ) x =
      PyScalar.I * oneBodyOp (arrayOne (2 * l) C) Ψ x := by
    intro A B C hc
    rw [oneBodyOp_comm]
    unfold oneBodyOp
    rw [mul_sum]
    refine sum_congr rfl fun i _ => ?_
    rw [mul_sum]
    refine sum_congr rfl fun y _ => ?_
    have := hc (x i) (x i).2 y y.2
    simp only [commAt, mulAt, Finset.sum_range] at this
    rw [← mul_assoc]
    congr 1
  exact ⟨key fun p hp q hq => (am.comm p hp q hq).1, key fun p hp q hq => (am.comm p hp q hq).2.1,
    key fun p hp q hq => (am.comm p hp q hq).2.2⟩

/-- `(∑_i S(i))²` from its one- and two-body parts. -/
theorem square_parts {N L : ℕ} (S : Fin L → Fin L → K) (Ψ : Wave K N L) (x : Fin N → Fin L) :
    oneBodyOp S (oneBodyOp S Ψ) x = oneBodyOp (fun p q => ∑ k, S p k * S k q) Ψ x +
      twoBodyOp (fun p q r s => S p r * S q s) Ψ x := oneBodyOp_comp S S Ψ x

theorem oneBodyOp_congr_add {N L : ℕ} {f g h k : Fin L → Fin L → K} (e : ∀ p q, k p q = f p q + g p q + h p q)
    (Ψ : Wave K N L) (x : Fin N → Fin L) :
    oneBodyOp k Ψ x = oneBodyOp f Ψ x + oneBodyOp g Ψ x + oneBodyOp h Ψ x := by
  unfold oneBodyOp
  simp only [← sum_add_distrib, e, add_mul]

theorem twoBodyOp_congr_add {N L : ℕ} {f g h k : Fin L → Fin L → Fin L → Fin L → K}
    (e : ∀ p q r s, k p q r s = f p q r s + g p q r s + h p q r s) (Ψ : Wave K N L) (x : Fin N → Fin L) :
    twoBodyOp k Ψ x = twoBodyOp f Ψ x + twoBodyOp g Ψ x + twoBodyOp h Ψ x := by
  unfold twoBodyOp
  simp only [← sum_add_distrib, e, add_mul]

theorem spinAct_square {l : ℕ} {σ : NDArray K} (h2 : ∀ p < 2, ∀ q < 2, mulAt 2 σ σ p q = kd p q) {S : NDArray K}
    (hS : ∀ p < 2 * l, ∀ q < 2 * l, S.get [p, q] = spinAct σ p q) (p q : Fin (2 * l)) :
    ∑ k, arrayOne (2 * l) S p k * arrayOne (2 * l) S k q = 1 / 4 * kd p.1 q.1 := by
  have e : ∑ k, arrayOne (2 * l) S p k * arrayOne (2 * l) S k q =
      ∑ k ∈ range (2 * l), spinAct σ p k * spinAct σ k q := by
    rw [Finset.sum_range]
    exact sum_congr rfl fun k _ => by rw [arrayOne, arrayOne, hS _ p.2 _ k.2, hS _ k.2 _ q.2]
  rw [e, spinAct_left p.2]
  simp only [spinAct, show 2 * (p.1 / 2) / 2 = p.1 / 2 by omega, show (2 * (p.1 / 2) + 1) / 2 = p.1 / 2 by omega,
    show 2 * (p.1 / 2) % 2 = 0 by omega, show (2 * (p.1 / 2) + 1) % 2 = 1 by omega]
  have := h2 (p.1 % 2) (by omega) (q.1 % 2) (by omega)
  rw [mulAt, sum_range_succ, sum_range_one] at this
  by_cases hpq : p.1 / 2 = q.1 / 2
  · rw [if_pos hpq, if_pos hpq]
    have k : (kd (p.1 % 2) (q.1 % 2) : K) = kd p.1 q.1 := by
      unfold kd
      refine if_congr ?_ rfl rfl
      omega
    rw [← k, ← this]
    ring
  · rw [if_neg hpq, if_neg hpq, kd, if_neg (by omega)]
    ring

/-- **C108** The stored arrays `spin_2` and `spin_2_tb` of a doubled orthonormal basis make the square of the total
spin of `N` particles: with plain elements on all functions, and with half of the anti-symmetrised ones on
antisymmetric functions. -/
theorem C108_squared {b b' : BasisSet K} {l : ℕ} {a₀ a₁ b₀ b₁ : K} {r anti : Bool} {s : NDArray K}
    (hb : WellFormed b l) (hsp : b.includesSpin = false) (hna : b.antiSym = false)
    (h : (changeToGeneralBase [a₀, a₁] [b₀, b₁] anti).run b = (.ok r, b')) (ho : OrthoSpin a₀ a₁ b₀ b₁)
    (hs : b.s = some s) (hov : ∀ p < l, ∀ q < l, s.get [p, q] = kd p q) :
    ∃ Sx Sy Sz s2 tb, b'.spinX = some Sx ∧ b'.spinY = some Sy ∧ b'.spinZ = some Sz ∧ b'.spin2 = some s2 ∧
      b'.spin2tb = some tb ∧ ∀ (N : ℕ) (Ψ : Wave K N (2 * l)), anti = false ∨ Antisymmetric Ψ →
        ∀ x : Fin N → Fin (2 * l),
          oneBodyOp (arrayOne (2 * l) s2) Ψ x +
              (if anti then 1 / 2 else 1) * twoBodyOp (arrayTwo (2 * l) tb) Ψ x =
            oneBodyOp (arrayOne (2 * l) Sx) (oneBodyOp (arrayOne (2 * l) Sx) Ψ) x +
            oneBodyOp (arrayOne (2 * l) Sy) (oneBodyOp (arrayOne (2 * l) Sy) Ψ) x +
            oneBodyOp (arrayOne (2 * l) Sz) (oneBodyOp (arrayOne (2 * l) Sz) Ψ) x := by
  obtain ⟨Sx, Sy, Sz, s2, tb, ex, ey, ez, e2, et, -, hs2, htb⟩ := C19_angular_momentum hb hsp h ho hs hov
  obtain ⟨-, ax, ay, az⟩ := orthonormal_doubled hb hsp h hs hov
  refine ⟨Sx, Sy, Sz, s2, tb, ex, ey, ez, e2, et, fun N Ψ hΨ x => ?_⟩
  let u : Fin (2 * l) → Fin (2 * l) → Fin (2 * l) → Fin (2 * l) → K := fun p q t v => spinTensor Sx Sy Sz p q t v
  have two : (if anti then 1 / 2 else 1) * twoBodyOp (arrayTwo (2 * l) tb) Ψ x = twoBodyOp u Ψ x := by
    cases anti with
    | false =>
      rw [if_neg (by simp), one_mul]
      congr 1
      funext p q t v
      rw [arrayTwo, htb.2 p p.2 q q.2 t t.2 v v.2, if_neg (by simp)]
    | true =>
      rw [if_pos rfl]
      rcases hΨ with hΨ | hΨ
      · exact absurd hΨ (by simp)
      rw [twoBodyOp_anti u hΨ]
      congr 2
      funext p q t v
      rw [arrayTwo, htb.2 p p.2 q q.2 t t.2 v v.2, if_pos ⟨rfl, hna⟩]
  rw [two, oneBodyOp_comp, oneBodyOp_comp, oneBodyOp_comp]
  have t1 := twoBodyOp_congr_add (k := u)
    (f := fun p q t v => arrayOne (2 * l) Sx p t * arrayOne (2 * l) Sx q v)
    (g := fun p q t v => arrayOne (2 * l) Sy p t * arrayOne (2 * l) Sy q v)
    (h := fun p q t v => arrayOne (2 * l) Sz p t * arrayOne (2 * l) Sz q v) (fun p q t v => rfl) Ψ x
  have o1 := oneBodyOp_congr_add (k := arrayOne (2 * l) s2)
    (f := fun p q => ∑ k, arrayOne (2 * l) Sx p k * arrayOne (2 * l) Sx k q)
    (g := fun p q => ∑ k, arrayOne (2 * l) Sy p k * arrayOne (2 * l) Sy k q)
    (h := fun p q => ∑ k, arrayOne (2 * l) Sz p k * arrayOne (2 * l) Sz k q) (fun p q => by
      rw [spinAct_square (fun p hp q hq => sigma_xx ho hp hq) (ax Sx ex),
        spinAct_square (fun p hp q hq => sigma_yy ho hp hq) (ay Sy ey),
        spinAct_square (fun p hp q hq => sigma_zz ho hp hq) (az Sz ez), arrayOne, hs2.2 p p.2 q q.2]
      ring) Ψ x
  rw [t1, o1]
  ring

/-! ## Reference determinants -/

/-- One orbital of a determinant whose partner with the other spin is occupied too. -/
theorem spin_paired {N l : ℕ} {S : NDArray K} {σ : NDArray K}
    (hS : ∀ p < 2 * l, ∀ q < 2 * l, S.get [p, q] = spinAct σ p q) {o : Fin N → Fin (2 * l)} {j j' : Fin N}
    (hj : j ≠ j') (ho : (o j').1 / 2 = (o j).1 / 2) (hne : o j ≠ o j') (x : Fin N → Fin (2 * l)) :
    ∑ a, arrayOne (2 * l) S a (o j) * slater (update o j a) x = arrayOne (2 * l) S (o j) (o j) * slater o x := by
  rw [sum_eq_single (o j)]
  · rw [update_eq_self]
  · intro a _ ha
    by_cases h : a.1 / 2 = (o j).1 / 2
    · have : a = o j' := by
        apply Fin.ext
        have h1 : a.1 ≠ (o j).1 := fun e => ha (Fin.ext e)
        have h2 : (o j).1 ≠ (o j').1 := fun e => hne (Fin.ext e)
        omega
      have z : slater (K := K) (update o j a) x = 0 := by
        unfold slater
        exact Matrix.det_zero_of_column_eq hj fun i => by simp [this, hj.symm]
      rw [z, mul_zero]
    · rw [arrayOne, hS _ a.2 _ (o j).2, spinAct, if_neg h, zero_mul]
  · intro h; exact absurd (mem_univ _) h

theorem spin_trace {l k : ℕ} {S σ : NDArray K} (hS : ∀ p < 2 * l, ∀ q < 2 * l, S.get [p, q] = spinAct σ p q)
    (tr : σ.get [0, 0] + σ.get [1, 1] = 0) (hk : 2 * k ≤ 2 * l) : ∑ j ∈ range (2 * k), S.get [j, j] = 0 := by
  rw [sum_range_two_mul]
  refine sum_eq_zero fun p hp => ?_
  have := mem_range.1 hp
  rw [sum_range_succ, sum_range_one, hS _ (by omega) _ (by omega), hS _ (by omega) _ (by omega), spinAct, spinAct,
    if_pos rfl, if_pos rfl, show (2 * p + 0) % 2 = 0 by omega, show (2 * p + 1) % 2 = 1 by omega, ← mul_add, tr,
    mul_zero]

/-- **C108** Closed-shell reference determinants of every size are annihilated by all components of the total
spin. -/
theorem closed_shell_spin {l k : ℕ} {S σ : NDArray K} (hS : ∀ p < 2 * l, ∀ q < 2 * l, S.get [p, q] = spinAct σ p q)
    (tr : σ.get [0, 0] + σ.get [1, 1] = 0) (hk : 2 * k ≤ 2 * l) :
    oneBodyOp (arrayOne (2 * l) S) (slater (firstOrbitals hk)) = fun _ => 0 := by
  funext x
  rw [oneBodyOp_slater]
  have : ∀ j : Fin (2 * k), ∑ a, arrayOne (2 * l) S a (firstOrbitals hk j) *
      slater (update (firstOrbitals hk) j a) x = S.get [j.1, j.1] * slater (firstOrbitals hk) x := by
    intro j
    let j' : Fin (2 * k) := ⟨2 * (j.1 / 2) + (1 - j.1 % 2), by omega⟩
    have hj : j ≠ j' := fun e => by
      have := congrArg Fin.val e
      simp only [j'] at this
      omega
    exact spin_paired hS (j := j) (j' := j') hj (by simp only [firstOrbitals, Fin.val_castLE, j']; omega)
      (fun e => hj (firstOrbitals_injective hk e)) x
  rw [sum_congr rfl fun j _ => this j, ← sum_mul, ← Finset.sum_range (fun j => S.get [j, j]), spin_trace hS tr hk,
    zero_mul]

/-- `2k` paired orbitals and the orbital `2k + τ`. -/
def oddOrbitals {l k : ℕ} (hk : 2 * k + 1 < 2 * l) (τ : Fin 2) : Fin (2 * k + 1) → Fin (2 * l) := fun j =>
  if h : j.1 < 2 * k then ⟨j.1, by omega⟩ else ⟨2 * k + τ.1, by omega⟩

theorem oddOrbitals_val {l k : ℕ} (hk : 2 * k + 1 < 2 * l) (τ : Fin 2) (j : Fin (2 * k + 1)) :
    (oddOrbitals hk τ j).1 = if j.1 < 2 * k then j.1 else 2 * k + τ.1 := by
  unfold oddOrbitals
  split_ifs <;> rfl

theorem oddOrbitals_zero {l k : ℕ} (hk : 2 * k + 1 < 2 * l) (hn : 2 * k + 1 ≤ 2 * l) :
    oddOrbitals hk 0 = firstOrbitals hn := by
  funext j
  apply Fin.ext
  rw [oddOrbitals_val]
  simp only [firstOrbitals, Fin.val_castLE, Fin.val_zero]
  split_ifs <;> omega

/-- With one unpaired particle the spin acts on this particle only. -/
theorem open_shell_spin {l k : ℕ} {S σ : NDArray K} (hS : ∀ p < 2 * l, ∀ q < 2 * l, S.get [p, q] = spinAct σ p q)
    (tr : σ.get [0, 0] + σ.get [1, 1] = 0) (hk : 2 * k + 1 < 2 * l) (τ : Fin 2) (x : Fin (2 * k + 1) → Fin (2 * l)) :
    oneBodyOp (arrayOne (2 * l) S) (slater (oddOrbitals hk τ)) x =
      ∑ ρ : Fin 2, 1 / 2 * σ.get [ρ.1, τ.1] * slater (oddOrbitals hk ρ) x := by
  rw [oneBodyOp_slater, Fin.sum_univ_castSucc]
  have v : ∀ j : Fin (2 * k), (oddOrbitals hk τ j.castSucc).1 = j.1 := fun j => by
    rw [oddOrbitals_val, if_pos (by simp)]; simp
  have paired : ∀ j : Fin (2 * k), ∑ a, arrayOne (2 * l) S a (oddOrbitals hk τ j.castSucc) *
      slater (update (oddOrbitals hk τ) j.castSucc a) x = S.get [j.1, j.1] * slater (oddOrbitals hk τ) x := by
    intro j
    let j' : Fin (2 * k) := ⟨2 * (j.1 / 2) + (1 - j.1 % 2), by omega⟩
    have hj : j ≠ j' := fun e => by
      have := congrArg Fin.val e
      simp only [j'] at this
      omega
    have hj' : j.castSucc ≠ j'.castSucc := fun e => hj (Fin.castSucc_injective _ e)
    rw [spin_paired hS (j := j.castSucc) (j' := j'.castSucc) hj' (by rw [v, v]; simp only [j']; omega) (fun e => by
      have := congrArg Fin.val e
      rw [v, v] at this
      exact hj (Fin.ext this)) x, arrayOne, v]
  rw [sum_congr rfl fun j _ => paired j, ← sum_mul, ← Finset.sum_range (fun j => S.get [j, j]),
    spin_trace hS tr (by omega), zero_mul, zero_add]
  have vl : (oddOrbitals hk τ (Fin.last (2 * k))).1 = 2 * k + τ.1 := by
    rw [oddOrbitals_val, if_neg (by simp)]
  symm
  refine sum_of_injOn (fun ρ : Fin 2 => (⟨2 * k + ρ.1, by omega⟩ : Fin (2 * l))) ?_
    (fun _ _ => mem_coe.2 (mem_univ _)) ?_ ?_
  · intro ρ _ κ _ e
    have := congrArg Fin.val e
    simp only at this
    exact Fin.ext (by omega)
  · intro a _ ha
    have : ¬ a.1 / 2 = k := by
      intro e
      refine ha ⟨⟨a.1 % 2, by omega⟩, by simp, Fin.ext ?_⟩
      simp only
      omega
    rw [arrayOne, hS _ a.2 _ (Fin.is_lt _), vl, spinAct, if_neg (by omega), zero_mul]
  · intro ρ _
    congr 1
    · rw [arrayOne, hS _ (Fin.is_lt _) _ (Fin.is_lt _), vl, spinAct]
      simp only
      rw [if_pos (by omega), show (2 * k + ρ.1) % 2 = ρ.1 by omega, show (2 * k + τ.1) % 2 = τ.1 by omega]
    · congr 1
      funext j
      apply Fin.ext
      by_cases h : j = Fin.last (2 * k)
      · subst h
        rw [update_self, oddOrbitals_val, if_neg (by simp)]
      · have hj : j.1 < 2 * k := by
          have := Fin.val_lt_last h
          simpa using this
        rw [update_of_ne h, oddOrbitals_val, oddOrbitals_val, if_pos hj, if_pos hj]

theorem oneBodyOp_sum {N L : ℕ} (A : Fin L → Fin L → K) (c : Fin 2 → K) (Ψ : Fin 2 → Wave K N L)
    (x : Fin N → Fin L) : oneBodyOp A (fun y => ∑ i, c i * Ψ i y) x = ∑ i, c i * oneBodyOp A (Ψ i) x := by
  unfold oneBodyOp
  simp only [Fin.sum_univ_two, mul_sum, ← sum_add_distrib]
  exact sum_congr rfl fun i _ => sum_congr rfl fun y _ => by ring

/-- The square of one component of the spin of one unpaired particle. -/
theorem open_shell_square {l k : ℕ} {S σ : NDArray K} (hS : ∀ p < 2 * l, ∀ q < 2 * l, S.get [p, q] = spinAct σ p q)
    (tr : σ.get [0, 0] + σ.get [1, 1] = 0) (h2 : ∀ p < 2, ∀ q < 2, mulAt 2 σ σ p q = kd p q)
    (hk : 2 * k + 1 < 2 * l) (τ : Fin 2) (x : Fin (2 * k + 1) → Fin (2 * l)) :
    oneBodyOp (arrayOne (2 * l) S) (oneBodyOp (arrayOne (2 * l) S) (slater (oddOrbitals hk τ))) x =
      1 / 4 * slater (oddOrbitals hk τ) x := by
  rw [funext fun y => open_shell_spin hS tr hk τ y, oneBodyOp_sum]
  simp only [open_shell_spin hS tr hk]
  have e : ∀ κ : Fin 2, ∑ ρ : Fin 2, σ.get [κ.1, ρ.1] * σ.get [ρ.1, τ.1] = if κ = τ then 1 else 0 := by
    intro κ
    have := h2 κ κ.2 τ τ.2
    rw [mulAt, Finset.sum_range] at this
    rw [this, kd]
    exact if_congr Fin.ext_iff.symm rfl rfl
  have r : ∑ ρ : Fin 2, 1 / 2 * σ.get [ρ.1, τ.1] * ∑ κ : Fin 2, 1 / 2 * σ.get [κ.1, ρ.1] * slater (oddOrbitals hk κ) x =
      ∑ κ : Fin 2, 1 / 4 * (∑ ρ : Fin 2, σ.get [κ.1, ρ.1] * σ.get [ρ.1, τ.1]) * slater (oddOrbitals hk κ) x := by
    simp only [Fin.sum_univ_two]
    ring
  rw [r]
  simp [e]

/-- **C108** In a doubled orthonormal basis the determinant of the first `n` orbitals, for all `n`, is an eigenfunction
of the square of the total spin made from the stored arrays: with eigenvalue `0` when `n` is even, where also every
component of the spin gives `0`, and with eigenvalue `3/4` when `n` is odd. -/
theorem C108_reference {b b' : BasisSet K} {l : ℕ} {a₀ a₁ b₀ b₁ : K} {r anti : Bool} {s : NDArray K}
    (hb : WellFormed b l) (hsp : b.includesSpin = false) (hna : b.antiSym = false)
    (h : (changeToGeneralBase [a₀, a₁] [b₀, b₁] anti).run b = (.ok r, b')) (ho : OrthoSpin a₀ a₁ b₀ b₁)
    (hs : b.s = some s) (hov : ∀ p < l, ∀ q < l, s.get [p, q] = kd p q) :
    ∃ Sx Sy Sz s2 tb, b'.spinX = some Sx ∧ b'.spinY = some Sy ∧ b'.spinZ = some Sz ∧ b'.spin2 = some s2 ∧
      b'.spin2tb = some tb ∧ ∀ (n : ℕ) (hn : n ≤ 2 * l),
        (∀ x, oneBodyOp (arrayOne (2 * l) s2) (slater (firstOrbitals hn)) x +
            (if anti then 1 / 2 else 1) * twoBodyOp (arrayTwo (2 * l) tb) (slater (firstOrbitals hn)) x =
          (if n % 2 = 0 then 0 else 3 / 4) * slater (firstOrbitals hn) x) ∧
        (n % 2 = 0 → ∀ S ∈ [Sx, Sy, Sz],
          oneBodyOp (arrayOne (2 * l) S) (slater (firstOrbitals hn)) = fun _ => 0) := by
  obtain ⟨Sx, Sy, Sz, s2, tb, ex, ey, ez, e2, et, sq⟩ := C108_squared hb hsp hna h ho hs hov
  obtain ⟨-, ax, ay, az⟩ := orthonormal_doubled hb hsp h hs hov
  have ax := ax Sx ex
  have ay := ay Sy ey
  have az := az Sz ez
  have tx := sigma_trace (m := sigmaXMat) (.inl rfl) ho
  have ty := sigma_trace (m := sigmaYMat) (.inr (.inl rfl)) ho
  have tz := sigma_trace (m := sigmaZMat) (.inr (.inr rfl)) ho
  refine ⟨Sx, Sy, Sz, s2, tb, ex, ey, ez, e2, et, fun n hn => ?_⟩
  have hsq := fun x => sq n (slater (firstOrbitals hn)) (.inr (slater_antisymmetric _)) x
  rcases Nat.even_or_odd' n with ⟨k, rfl | rfl⟩
  · have cx := closed_shell_spin ax tx hn
    have cy := closed_shell_spin ay ty hn
    have cz := closed_shell_spin az tz hn
    refine ⟨fun x => ?_, fun _ S hS => ?_⟩
    · rw [hsq, cx, cy, cz, if_pos (by omega)]
      simp [oneBodyOp]
    · simp only [List.mem_cons, List.not_mem_nil, or_false] at hS
      rcases hS with rfl | rfl | rfl
      · exact cx
      · exact cy
      · exact cz
  · refine ⟨fun x => ?_, fun h => absurd h (by omega)⟩
    have hk : 2 * k + 1 < 2 * l := by omega
    rw [hsq, ← oddOrbitals_zero hk, open_shell_square ax tx (fun p hp q hq => sigma_xx ho hp hq) hk,
      open_shell_square ay ty (fun p hp q hq => sigma_yy ho hp hq) hk,
      open_shell_square az tz (fun p hp q hq => sigma_zz ho hp hq) hk, if_neg (by omega)]
    ring

/-- **C108** In the standard spin basis the determinant of the first `n` orbitals has the `z` component `0` or `1/2`. -/
theorem C108_projection {b b' : BasisSet K} {l : ℕ} {r anti : Bool} {s : NDArray K}
    (hb : WellFormed b l) (hsp : b.includesSpin = false)
    (h : (changeToGeneralBase [(1 : K), 0] [0, 1] anti).run b = (.ok r, b'))
    (hs : b.s = some s) (hov : ∀ p < l, ∀ q < l, s.get [p, q] = kd p q) :
    ∃ Sz, b'.spinZ = some Sz ∧ ∀ (n : ℕ) (hn : n ≤ 2 * l) (x : Fin n → Fin (2 * l)),
      oneBodyOp (arrayOne (2 * l) Sz) (slater (firstOrbitals hn)) x =
        (if n % 2 = 0 then 0 else 1 / 2) * slater (firstOrbitals hn) x := by
  have ho : OrthoSpin (1 : K) 0 0 1 := by constructor <;> simp [spinor]
  obtain ⟨Sx, Sy, Sz, s2, tb, ex, ey, ez, -⟩ := C19_angular_momentum hb hsp h ho hs hov
  obtain ⟨-, -, -, az⟩ := orthonormal_doubled hb hsp h hs hov
  have az := az Sz ez
  have tz := sigma_trace (m := sigmaZMat) (.inr (.inr rfl)) ho
  refine ⟨Sz, ez, fun n hn x => ?_⟩
  rcases Nat.even_or_odd' n with ⟨k, rfl | rfl⟩
  · rw [closed_shell_spin az tz hn, if_pos (by omega), zero_mul]
  · have hk : 2 * k + 1 < 2 * l := by omega
    rw [← oddOrbitals_zero hk, open_shell_spin az tz hk, Fin.sum_univ_two, if_neg (by omega)]
    simp [sigmaZMat, pauliOf_get00, pauliOf_get10]

/-- Three particles in the four spin orbitals of `Demo.basis` with another spin basis, anti-symmetrised. -/
example : ∃ b' s2 tb, (changeToGeneralBase [(⟨3 / 5, 0⟩ : GaussQ), ⟨0, 4 / 5⟩] [⟨4 / 5, 0⟩, ⟨0, -3 / 5⟩] true).run
      Demo.basis = (.ok true, b') ∧ b'.spin2 = some s2 ∧ b'.spin2tb = some tb ∧
    oneBodyOp (arrayOne 4 s2) (slater (firstOrbitals (show 3 ≤ 4 by omega))) (fun i => ⟨i.1, by omega⟩) +
      1 / 2 * twoBodyOp (arrayTwo 4 tb) (slater (firstOrbitals (show 3 ≤ 4 by omega))) (fun i => ⟨i.1, by omega⟩) =
        3 / 4 * slater (firstOrbitals (show 3 ≤ 4 by omega)) (fun i => ⟨i.1, by omega⟩) ∧
    slater (K := GaussQ) (firstOrbitals (show 3 ≤ 4 by omega)) (fun i => ⟨i.1, by omega⟩) = 1 := by
  obtain ⟨b', h⟩ := C16_succeeds true Demo.basis_wf rfl rfl ortho_345
  obtain ⟨Sx, Sy, Sz, s2, tb, -, -, -, e2, et, H⟩ := C108_reference Demo.basis_wf rfl rfl h ortho_345 rfl
    (by unfold kd; decide +kernel)
  exact ⟨b', s2, tb, h, e2, et, by simpa using (H 3 (by omega)).1 (fun i => ⟨i.1, by omega⟩),
    slater_self (firstOrbitals_injective (show 3 ≤ 4 by omega))⟩

end QS.Props
